import Verif.Proof.PolTree

/-! # Checking the proof tree in `Pollard::Verify` -/

set_option linter.unusedSectionVars false

namespace Utreexo
open Spec Equiv

variable {H : Type} [DecidableEq H] [HashOps H]

namespace Pol

/-- The hash stored for a node. -/
def val (heap : List (INode H)) (A : Addr) (r x : ℕ) : Option H := (A r x).bind (hz heap)

theorem val_some {heap : List (INode H)} {A : Addr} {r x p : ℕ} (h : A r x = some p) : val heap A r x = hz heap p := by
  unfold val; rw [h]; rfl

/-- What the construction leaves behind and the check does not change. -/
structure Base (K : Ctx H) (A1 : Addr) (cs : List (ℕ × ℕ)) (heap1 : List (INode H)) : Prop where
  ok : K.Ok
  ext : ∀ r x p, K.A0 r x = some p → A1 r x = some p
  new : ∀ r x p, A1 r x = some p → K.A0 r x = none → (r, x) ∈ cs
  nodup : cs.Nodup
  mem : ∀ r x, (r, x) ∈ cs ↔ x ∈ Vn K.n K.D r
  pres : ∀ r x, (r, x) ∈ cs → (A1 r x).isSome
  good : K.hon → ∀ r x, x ∈ Pn K.n K.D r → val heap1 A1 r x = some (K.c r x)

/-- Marked as target. -/
def tauF (n : ℕ) (D : List ℕ) (r x : ℕ) : Bool := decide (x ∈ Cn n D r)

/-- Against `heap1` the leaves of `l`, and no others, have become remembered. -/
structure FPre (K : Ctx H) (A1 : Addr) (heap1 heap : List (INode H)) (l : List ℕ) : Prop where
  back : ∀ x p, A1 0 x = some p → (nz heap (some p) 0).isSome → (nz heap1 (some p) 0).isSome ∨
    ∃ y ∈ l, holder (rtOf K.n) A1 0 y = some p
  all : ∀ y ∈ l, (nz heap (holder (rtOf K.n) A1 0 y) 0).isSome

/-- The first `m` targets that have an object come with the right hashes. -/
def Match (K : Ctx H) (m : ℕ) : Prop := ∀ i x, i < m → K.D[i]? = some x → (K.A0 0 x).isSome → K.hs[i]? = some (K.c 0 x)

/-- The part of the invariant that also holds after a failure. -/
structure VW (K : Ctx H) (A1 : Addr) (cs : List (ℕ × ℕ)) (heap1 : List (INode H)) (t : VPT H) (ν : ℕ → ℕ → Bool) : Prop where
  shape : Shape t.heap (rtOf K.n) A1
  old : ∀ r x p, K.A0 r x = some p → hz t.heap p = some (K.c r x)
  prf : ∀ r x, x ∈ Pn K.n K.D r → val t.heap A1 r x = val heap1 A1 r x
  len : t.heap.length = heap1.length
  arena : t.arena = cs.map (vn K.n K.A0 A1 cs (tauF K.n K.D) ν)
  flg : ∀ x p, K.A0 0 x = some p → (nz K.heap0 (some p) 0).isSome → (nz t.heap (some p) 0).isSome
  fnew : ∀ x p, A1 0 x = some p → (nz t.heap (some p) 0).isSome → (nz heap1 (some p) 0).isSome ∨
    ∃ y ∈ K.D, holder (rtOf K.n) A1 0 y = some p
  pre : ∃ m, FPre K A1 heap1 t.heap (K.D.take m) ∧ Match K m

/-- Processed computed nodes. -/
def prc (n : ℕ) (D : List ℕ) (k : ℕ) (done : List ℕ) (r x : ℕ) : Prop := (r < k ∧ x ∈ Cn n D r) ∨ (r = k ∧ x ∈ done)

/-- State of the check: rows below `k` are done and in row `k` the computed nodes `done`. -/
structure VI (K : Ctx H) (hs0 : List H) (A1 : Addr) (cs : List (ℕ × ℕ)) (heap1 : List (INode H)) (t : VPT H) (ν : ℕ → ℕ → Bool)
    (k : ℕ) (done : List ℕ) : Prop extends VW K A1 cs heap1 t ν where
  flags : ∀ r y, ν r y = true → ∃ q, r = q + 1 ∧ (holder (rtOf K.n) K.A0 r y).isSome ∧
    ∀ b, b < 2 → (K.A0 q (2 * y + b)).isSome ∨
      (prc K.n K.D k done q (2 * y + b) ∧ val t.heap A1 q (2 * y + b) = some (K.c q (2 * y + b)))
  sem : ∀ r y, prc K.n K.D k done (r + 1) y →
    (val t.heap A1 r (2 * y) = some (K.c r (2 * y)) ∧ val t.heap A1 r (2 * y + 1) = some (K.c r (2 * y + 1))) ∨
    ∃ a b, val t.heap A1 r (2 * y) = some a ∧ val t.heap A1 r (2 * y + 1) = some b ∧ val t.heap A1 (r + 1) y = some (HashOps.ph a b)
  tgt : hs0.map some = (if k = 0 then done else K.D).map (val t.heap A1 0) ++ t.targets.map some
  flag : ∀ x, prc K.n K.D k done 0 x → (nz t.heap (holder (rtOf K.n) A1 0 x) 0).isSome
  hon : K.hon → ∀ r x, prc K.n K.D k done r x → val t.heap A1 r x = some (K.c r x)
  fdone : k = 0 → FPre K A1 heap1 t.heap done
  same : hs0 = K.hs

section
variable {K : Ctx H} {hs0 : List H} {A1 : Addr} {cs : List (ℕ × ℕ)} {heap1 : List (INode H)} {t : VPT H} {ν : ℕ → ℕ → Bool}
  {k : ℕ} {done : List ℕ}

theorem Base.inn (B : Base K A1 cs heap1) {r x : ℕ} (h : (r, x) ∈ cs) : x < K.n / 2 ^ r := Vn_in B.ok.sane ((B.mem _ _).1 h)

theorem Base.sib (B : Base K A1 cs heap1) {r x : ℕ} (h : (r, x) ∈ cs) (hr : rtOf K.n r x = false) : (r, x ^^^ 1) ∈ cs :=
  (B.mem _ _).2 (Vn_sib B.ok.sane ((B.mem _ _).1 h) hr)

theorem Base.parent (B : Base K A1 cs heap1) {r x : ℕ} (h : (r, x) ∈ cs) (hr : rtOf K.n r x = false) : (r + 1, x / 2) ∈ cs :=
  (B.mem _ _).2 (Cn_sub B.ok.sane (Vn_parent B.ok.sane ((B.mem _ _).1 h) hr))

theorem Base.sibRt (B : Base K A1 cs heap1) {r x : ℕ} (h : (r, x) ∈ cs) (hr : rtOf K.n r x = false) :
    rtOf K.n r (x ^^^ 1) = false := by
  have h1 := B.inn h
  apply rtOf_false
  rw [sb_div]
  by_contra hc
  rw [(rtOf_iff h1).2 hc] at hr
  simp at hr

theorem Base.hold (B : Base K A1 cs heap1) {r x : ℕ} (h : (r, x) ∈ cs) : ∃ p, holder (rtOf K.n) A1 r x = some p := by
  cases hr : rtOf K.n r x with
  | true => rw [holder_root hr]; exact Option.isSome_iff_exists.1 (B.pres _ _ h)
  | false =>
    rw [holder_sib hr (B.sibRt h hr)]
    exact Option.isSome_iff_exists.1 (B.pres _ _ (B.sib h hr))

theorem Base.kid (B : Base K A1 cs heap1) {q x b : ℕ} (hb : b < 2) (hx : x ∈ Cn K.n K.D (q + 1)) : (q, 2 * x + b) ∈ cs := by
  rw [B.mem, mem_Vn B.ok.sane]
  left
  rw [show (2 * x + b) / 2 = x by omega]; exact hx

theorem VW.node (W : VW K A1 cs heap1 t ν) {e : ℕ × ℕ} (h : e ∈ cs) :
    t.arena[cs.idxOf e]? = some (vn K.n K.A0 A1 cs (tauF K.n K.D) ν e) := by
  rw [W.arena, List.getElem?_map, List.getElem?_idxOf h]; rfl

theorem VW.get (W : VW K A1 cs heap1 t ν) (B : Base K A1 cs heap1) {r x : ℕ} (h : (r, x) ∈ cs) :
    ∃ p z, A1 r x = some p ∧ t.heap[p]? = some z ∧ val t.heap A1 r x = some z.hash := by
  obtain ⟨p, hp⟩ := Option.isSome_iff_exists.1 (B.pres _ _ h)
  obtain ⟨z, hg⟩ := W.shape.get hp
  refine ⟨p, z, hp, hg, ?_⟩
  rw [val_some hp]; unfold hz; rw [hg]; rfl

theorem VW.cached (W : VW K A1 cs heap1 t ν) (B : Base K A1 cs heap1) {r x : ℕ} (h : (K.A0 r x).isSome = true) :
    val t.heap A1 r x = some (K.c r x) := by
  obtain ⟨p, hp⟩ := Option.isSome_iff_exists.1 h
  rw [val_some (B.ext _ _ _ hp), W.old _ _ _ hp]

/-- Hashing the children of a computed node. -/
theorem childrenHash_ok (W : VW K A1 cs heap1 t ν) (B : Base K A1 cs heap1) {q x : ℕ} (hx : x ∈ Cn K.n K.D (q + 1)) :
    ∃ a b, val t.heap A1 q (2 * x) = some a ∧ val t.heap A1 q (2 * x + 1) = some b ∧
      childrenHash t.heap (vn K.n K.A0 A1 cs (tauF K.n K.D) ν (q + 1, x)) = .ok (some (HashOps.ph a b)) := by
  have hm : (q + 1, x) ∈ cs := (B.mem _ _).2 (Cn_sub B.ok.sane hx)
  have hin := B.inn hm
  obtain ⟨p, hp⟩ := B.hold hm
  obtain ⟨z, hg⟩ := W.shape.hget hp
  obtain ⟨p0, z0, a1, a2, a3⟩ := W.get B (B.kid (b := 0) (by omega) hx)
  obtain ⟨p1, z1, b1, b2, b3⟩ := W.get B (B.kid (b := 1) (by omega) hx)
  rw [Nat.add_zero] at a1 a3
  have r0 : rtOf K.n q (2 * x) = false := rtOf_false (by rw [show (2 * x) / 2 = x by omega]; exact hin)
  have r1 : rtOf K.n q (2 * x + 1) = false := rtOf_false (by rw [show (2 * x + 1) / 2 = x by omega]; exact hin)
  have k0 := W.shape.kids q (2 * x) r0
  have k1 := W.shape.kids q (2 * x + 1) r1
  rw [show (2 * x) / 2 = x by omega, show (2 * x) % 2 = 0 by omega, hp, nz_some hg, a1] at k0
  rw [show (2 * x + 1) / 2 = x by omega, show (2 * x + 1) % 2 = 1 by omega, hp, nz_some hg, b1] at k1
  have k0' : z.n0 = some p0 := k0.symm
  have k1' : z.n1 = some p1 := k1.symm
  refine ⟨z0.hash, z1.hash, a3, b3, ?_⟩
  unfold childrenHash
  have v3 : (vn K.n K.A0 A1 cs (tauF K.n K.D) ν (q + 1, x)).sib = some p := hp
  rw [v3, deref_ok hg, ok_bind, k0', k1']
  simp only []
  rw [vecGet_ok a2, ok_bind, vecGet_ok b2, ok_bind]
  rfl

/-- Setting the flag of a node. -/
def mark (ν : ℕ → ℕ → Bool) (r y : ℕ) : ℕ → ℕ → Bool := fun r' y' => if r' = r ∧ y' = y then true else ν r' y'

theorem markValid_ok (B : Base K A1 cs heap1) {k x : ℕ} (hm : (k, x) ∈ cs) (ν μ : ℕ → ℕ → Bool) :
    ∃ ν', markValid (cs.map (vn K.n K.A0 A1 cs (tauF K.n K.D) ν)) (vn K.n K.A0 A1 cs (tauF K.n K.D) μ (k, x)).parent =
        cs.map (vn K.n K.A0 A1 cs (tauF K.n K.D) ν') ∧
      ∀ r y, ν' r y = true → ν r y = true ∨ (r = k + 1 ∧ y = x / 2 ∧ rtOf K.n k x = false) := by
  unfold markValid
  have hpar : (vn K.n K.A0 A1 cs (tauF K.n K.D) μ (k, x)).parent = if rtOf K.n k x then none else some (cs.idxOf (k + 1, x / 2)) := rfl
  rw [hpar]
  cases hr : rtOf K.n k x with
  | true =>
    exact ⟨ν, rfl, fun r y h => .inl h⟩
  | false =>
    have hp := B.parent hm hr
    refine ⟨mark ν (k + 1) (x / 2), ?_, ?_⟩
    · have hg : (cs.map (vn K.n K.A0 A1 cs (tauF K.n K.D) ν))[cs.idxOf (k + 1, x / 2)]? =
          some (vn K.n K.A0 A1 cs (tauF K.n K.D) ν (k + 1, x / 2)) := by
        rw [List.getElem?_map, List.getElem?_idxOf hp]; rfl
      simp only [Bool.false_eq_true, if_false]
      rw [hg]
      simp only []
      rw [← map_set_idx B.nodup hp (g := vn K.n K.A0 A1 cs (tauF K.n K.D) ν)
        (g' := vn K.n K.A0 A1 cs (tauF K.n K.D) (mark ν (k + 1) (x / 2)))]
      · congr 1
        unfold vn mark
        simp
      · rintro ⟨r, y⟩ _ hne
        refine vn_congr rfl rfl (fun _ => rfl) rfl ?_
        unfold mark
        rw [if_neg]
        rintro ⟨h1, h2⟩
        exact hne (by simp only at h1 h2; rw [h1, h2])
    · intro r y h
      unfold mark at h
      by_cases e : r = k + 1 ∧ y = x / 2
      · exact .inr ⟨e.1, e.2, rfl⟩
      · rw [if_neg e] at h; exact .inl h

/-- The invariant after a computed node. -/
theorem VI.step (B : Base K A1 cs heap1) (V : VI K hs0 A1 cs heap1 t ν k done) {t' : VPT H} {ν' : ℕ → ℕ → Bool} {x : ℕ}
    (hx : x ∈ Cn K.n K.D k) (hd : x ∉ done) (W : VW K A1 cs heap1 t' ν')
    (frame : ∀ r y, ¬ (r = k ∧ y = x) → val t'.heap A1 r y = val t.heap A1 r y)
    (hν : ∀ r y, ν' r y = true → ν r y = true ∨ (r = k + 1 ∧ y = x / 2 ∧ rtOf K.n k x = false ∧ (K.A0 k (x ^^^ 1)).isSome = true ∧
      val t'.heap A1 k x = some (K.c k x)))
    (hsem : ∀ q, k = q + 1 →
      (val t.heap A1 q (2 * x) = some (K.c q (2 * x)) ∧ val t.heap A1 q (2 * x + 1) = some (K.c q (2 * x + 1))) ∨
      ∃ a b, val t.heap A1 q (2 * x) = some a ∧ val t.heap A1 q (2 * x + 1) = some b ∧ val t'.heap A1 k x = some (HashOps.ph a b))
    (htgt : k = 0 → ∃ th, val t'.heap A1 0 x = some th ∧ t.targets = th :: t'.targets) (htgt' : k ≠ 0 → t'.targets = t.targets)
    (hflag : ∀ y, (nz t.heap (holder (rtOf K.n) A1 0 y) 0).isSome → (nz t'.heap (holder (rtOf K.n) A1 0 y) 0).isSome)
    (hflag' : k = 0 → (nz t'.heap (holder (rtOf K.n) A1 0 x) 0).isSome)
    (hhon : K.hon → val t'.heap A1 k x = some (K.c k x)) (hpre : k = 0 → FPre K A1 heap1 t'.heap (done ++ [x])) :
    VI K hs0 A1 cs heap1 t' ν' k (done ++ [x]) := by
  have hm : (k, x) ∈ cs := (B.mem _ _).2 (Cn_sub B.ok.sane hx)
  have pne : ∀ r y, prc K.n K.D k done r y → ¬ (r = k ∧ y = x) := by
    rintro r y (h | ⟨h1, h2⟩) ⟨rfl, rfl⟩
    · omega
    · exact hd h2
  have psub : ∀ r y, prc K.n K.D k done r y → prc K.n K.D k (done ++ [x]) r y := by
    rintro r y (h | ⟨h1, h2⟩)
    · exact .inl h
    · exact .inr ⟨h1, List.mem_append_left _ h2⟩
  have pcase : ∀ r y, prc K.n K.D k (done ++ [x]) r y → prc K.n K.D k done r y ∨ (r = k ∧ y = x) := by
    rintro r y (h | ⟨h1, h2⟩)
    · exact .inl (.inl h)
    · rcases List.mem_append.1 h2 with h2 | h2
      · exact .inl (.inr ⟨h1, h2⟩)
      · exact .inr ⟨h1, List.mem_singleton.1 h2⟩
  refine { W with flags := ?_, sem := ?_, tgt := ?_, flag := ?_, hon := ?_, fdone := hpre, same := V.same }
  · intro r y h
    rcases hν r y h with h | ⟨rfl, rfl, h3, h4, h5⟩
    · obtain ⟨q, rfl, h2, h3⟩ := V.flags r y h
      refine ⟨q, rfl, h2, ?_⟩
      intro b hb
      rcases h3 b hb with h | ⟨h4, h5⟩
      · exact .inl h
      · exact .inr ⟨psub _ _ h4, by rw [frame _ _ (pne _ _ h4)]; exact h5⟩
    · refine ⟨k, rfl, ?_, ?_⟩
      · obtain ⟨p, hp⟩ := Option.isSome_iff_exists.1 h4
        obtain ⟨q, hq⟩ := B.ok.shape.holder_of hp (B.sibRt hm h3)
        rw [sb_div] at hq
        rw [hq]; rfl
      · intro b hb
        by_cases e : 2 * (x / 2) + b = x
        · right
          rw [e]
          exact ⟨.inr ⟨rfl, by simp⟩, h5⟩
        · left
          have : 2 * (x / 2) + b = x ^^^ 1 := by rw [xor_one_cases]; split <;> omega
          rw [this]; exact h4
  · intro r y h
    rcases pcase _ _ h with h | ⟨h1, rfl⟩
    · have hr : r < k := by
        rcases h with h | h <;> omega
      rw [frame r _ (by omega), frame r _ (by omega), frame (r + 1) y (pne _ _ h)]
      exact V.sem r y h
    · rw [frame r _ (by omega), frame r _ (by omega), h1]
      exact hsem r h1.symm
  · by_cases h0 : k = 0
    · subst h0
      obtain ⟨th, e1, e2⟩ := htgt rfl
      have h := V.tgt
      rw [if_pos rfl] at h ⊢
      rw [h, e2, List.map_append, List.map_cons, List.map_cons, List.map_nil, e1, List.append_assoc]
      congr 1
      apply List.map_congr_left
      intro y hy
      rw [frame 0 y]
      rintro ⟨-, rfl⟩; exact hd hy
    · have h := V.tgt
      rw [if_neg h0] at h ⊢
      rw [h, htgt' h0]
      congr 1
      apply List.map_congr_left
      intro y hy
      rw [frame 0 y (by omega)]
  · intro y h
    rcases pcase _ _ h with h | ⟨h1, rfl⟩
    · exact hflag y (V.flag y h)
    · exact hflag' h1.symm
  · intro hh r y h
    rcases pcase _ _ h with h | ⟨rfl, rfl⟩
    · rw [frame r y (pne _ _ h)]
      exact V.hon hh r y h
    · exact hhon hh

end

/-! ## Writing hashes and flags -/

theorem val_setHash {heap : List (INode H)} {rt : ℕ → ℕ → Bool} {A : Addr} (s : Shape heap rt A) {k x p : ℕ} {z : INode H}
    (hp : A k x = some p) (hg : heap[p]? = some z) (h : H) :
    val (heap.set p { z with hash := h }) A k x = some h ∧
    ∀ r y, ¬ (r = k ∧ y = x) → val (heap.set p { z with hash := h }) A r y = val heap A r y := by
  constructor
  · rw [val_some hp, hz_set (lt_of_get hg), if_pos rfl]
  · intro r y hne
    unfold val
    cases hA : A r y with
    | none => rfl
    | some p' =>
      simp only [Option.bind_some]
      rw [hz_set (lt_of_get hg), if_neg]
      rintro rfl
      exact hne (s.inj _ _ _ _ _ hA hp)

theorem hz_setFlag {heap : List (INode H)} {p : ℕ} {z : INode H} (hg : heap[p]? = some z) (o : Option ℕ) (q : ℕ) :
    hz (heap.set p { z with n0 := o }) q = hz heap q := by
  rw [hz_set (lt_of_get hg)]
  split
  · next e => subst e; unfold hz; rw [hg]; rfl
  · rfl

theorem val_setFlag {heap : List (INode H)} {A : Addr} {p : ℕ} {z : INode H} (hg : heap[p]? = some z) (o : Option ℕ) (r y : ℕ) :
    val (heap.set p { z with n0 := o }) A r y = val heap A r y := by
  unfold val
  cases A r y with
  | none => rfl
  | some q => exact hz_setFlag hg o q

theorem nz_setHash {heap : List (INode H)} {p : ℕ} {z : INode H} (hg : heap[p]? = some z) (h : H) (q : Option ℕ) (b : ℕ) :
    nz (heap.set p { z with hash := h }) q b = nz heap q b := by
  cases q with
  | none => rfl
  | some q =>
    rw [nz_set (lt_of_get hg)]
    split
    · next e => subst e; rw [nz_some hg]; rfl
    · rfl

theorem FPre.setHash {K : Ctx H} {A1 : Addr} {heap1 heap : List (INode H)} {l : List ℕ} (F : FPre K A1 heap1 heap l) {p : ℕ}
    {z : INode H} (hg : heap[p]? = some z) (h : H) : FPre K A1 heap1 (heap.set p { z with hash := h }) l where
  back := by
    intro x q hq hf
    rw [nz_setHash hg] at hf
    exact F.back x q hq hf
  all := by
    intro y hy
    rw [nz_setHash hg]
    exact F.all y hy

theorem FPre.setFlag {K : Ctx H} {A1 : Addr} {heap1 heap : List (INode H)} {l : List ℕ} (F : FPre K A1 heap1 heap l) {p x : ℕ}
    {z : INode H} (hg : heap[p]? = some z) (hp : holder (rtOf K.n) A1 0 x = some p) :
    FPre K A1 heap1 (heap.set p { z with n0 := some 0 }) (l ++ [x]) where
  back := by
    intro y q hq hf
    rw [nz_set (lt_of_get hg)] at hf
    split at hf
    · rename_i e
      rw [e]; exact .inr ⟨x, by simp, hp⟩
    · rcases F.back y q hq hf with h | ⟨u, hu, h⟩
      · exact .inl h
      · exact .inr ⟨u, by simp [hu], h⟩
  all := by
    intro y hy
    cases hq : holder (rtOf K.n) A1 0 y with
    | none =>
      rcases List.mem_append.1 hy with hy | hy
      · have := F.all y hy
        rw [hq] at this
        simp [nz] at this
      · rw [List.mem_singleton.1 hy, hp] at hq
        simp at hq
    | some q =>
      rw [nz_set (lt_of_get hg)]
      split
      · rfl
      · next hne =>
        rcases List.mem_append.1 hy with hy | hy
        · have := F.all y hy
          rw [hq] at this
          exact this
        · rw [List.mem_singleton.1 hy, hp] at hq
          exact absurd (Option.some.inj hq).symm hne

section
variable {K : Ctx H} {hs0 : List H} {A1 : Addr} {cs : List (ℕ × ℕ)} {heap1 : List (INode H)} {t : VPT H} {ν : ℕ → ℕ → Bool}
  {k : ℕ} {done : List ℕ}

/-- Writing the hash of a computed node that was not cached. -/
theorem VW.setHash {t' : VPT H} {ν' : ℕ → ℕ → Bool} (B : Base K A1 cs heap1) (W : VW K A1 cs heap1 t ν) {x p : ℕ} {z : INode H}
    (hx : x ∈ Cn K.n K.D k) (h0 : K.A0 k x = none) (hp : A1 k x = some p) (hg : t.heap[p]? = some z) (h : H)
    (h1 : t'.heap = t.heap.set p { z with hash := h }) (h2 : t'.arena = cs.map (vn K.n K.A0 A1 cs (tauF K.n K.D) ν')) :
    VW K A1 cs heap1 t' ν' where
  shape := by rw [h1]; exact W.shape.setHash hg h
  old := by
    intro r y q hq
    rw [h1, hz_set (lt_of_get hg), if_neg, W.old _ _ _ hq]
    rintro rfl
    obtain ⟨rfl, rfl⟩ := W.shape.inj _ _ _ _ _ (B.ext _ _ _ hq) hp
    rw [h0] at hq; simp at hq
  prf := by
    intro r y hy
    rw [h1, (val_setHash W.shape hp hg h).2 r y, W.prf r y hy]
    rintro ⟨rfl, rfl⟩
    exact ((mem_Pn B.ok.sane).1 hy).2.2 hx
  len := by rw [h1, List.length_set, W.len]
  arena := h2
  flg := by
    intro y q hq hf
    rw [h1, nz_setHash hg]
    exact W.flg y q hq hf
  fnew := by
    intro y q hq hf
    rw [h1, nz_setHash hg] at hf
    exact W.fnew y q hq hf
  pre := by
    obtain ⟨m, F, M⟩ := W.pre
    exact ⟨m, by rw [h1]; exact F.setHash hg h, M⟩

/-- Writing the flag of a leaf. -/
theorem VW.setFlag {t' : VPT H} {ν' : ℕ → ℕ → Bool} (W : VW K A1 cs heap1 t ν) {x p : ℕ} {z : INode H}
    (hp : A1 0 x = some p) (hg : t.heap[p]? = some z) (hD : ∃ y ∈ K.D, holder (rtOf K.n) A1 0 y = some p)
    (hpre : ∃ m, FPre K A1 heap1 t'.heap (K.D.take m) ∧ Match K m) (h1 : t'.heap = t.heap.set p { z with n0 := some 0 }) (h2 : t'.arena = cs.map (vn K.n K.A0 A1 cs (tauF K.n K.D) ν')) :
    VW K A1 cs heap1 t' ν' where
  shape := by rw [h1]; exact W.shape.setFlag hp hg (.inr rfl)
  old := by
    intro r y q hq
    rw [h1, hz_setFlag hg, W.old _ _ _ hq]
  prf := by
    intro r y hy
    rw [h1, val_setFlag hg, W.prf r y hy]
  len := by rw [h1, List.length_set, W.len]
  arena := h2
  flg := by
    intro y q hq hf
    rw [h1, nz_set (lt_of_get hg)]
    split
    · rfl
    · exact W.flg y q hq hf
  fnew := by
    intro y q hq hf
    rw [h1, nz_set (lt_of_get hg)] at hf
    split at hf
    · rename_i e
      rw [e]; exact .inr hD
    · exact W.fnew y q hq hf
  pre := hpre

theorem VW.setArena {t' : VPT H} {ν' : ℕ → ℕ → Bool} (W : VW K A1 cs heap1 t ν) (h1 : t'.heap = t.heap)
    (h2 : t'.arena = cs.map (vn K.n K.A0 A1 cs (tauF K.n K.D) ν')) : VW K A1 cs heap1 t' ν' where
  shape := by rw [h1]; exact W.shape
  old := by rw [h1]; exact W.old
  prf := by rw [h1]; exact W.prf
  len := by rw [h1]; exact W.len
  arena := h2
  flg := by rw [h1]; exact W.flg
  fnew := by rw [h1]; exact W.fnew
  pre := by rw [h1]; exact W.pre

/-- Result of processing a node. -/
def NodeOut (K : Ctx H) (hs0 : List H) (A1 : Addr) (cs : List (ℕ × ℕ)) (heap1 : List (INode H)) (k : ℕ) (done' : List ℕ)
    (next' : List ℕ) (R : Res (Step (VPT H × List ℕ))) : Prop :=
  (∃ t' ν', R = .ok (.cont (t', next')) ∧ VI K hs0 A1 cs heap1 t' ν' k done') ∨
  (∃ t' ν' nx, R = .ok (.fail (t', nx)) ∧ ¬ K.hon ∧ VW K A1 cs heap1 t' ν')

theorem markIf (B : Base K A1 cs heap1) (W : VW K A1 cs heap1 t ν) {x : ℕ} (hm : (k, x) ∈ cs) (b : Bool) (μ : ℕ → ℕ → Bool) :
    ∃ ν', (if b = true then markValid t.arena (vn K.n K.A0 A1 cs (tauF K.n K.D) μ (k, x)).parent else t.arena) =
        cs.map (vn K.n K.A0 A1 cs (tauF K.n K.D) ν') ∧
      ∀ r y, ν' r y = true → ν r y = true ∨ (b = true ∧ r = k + 1 ∧ y = x / 2 ∧ rtOf K.n k x = false) := by
  cases b with
  | false => exact ⟨ν, W.arena, fun r y h => .inl h⟩
  | true =>
    obtain ⟨ν', h1, h2⟩ := markValid_ok B hm ν μ
    refine ⟨ν', ?_, fun r y h => ?_⟩
    · rw [if_pos rfl, W.arena]; exact h1
    · rcases h2 r y h with h | h
      · exact .inl h
      · exact .inr ⟨rfl, h⟩

theorem vptNode_leaf (B : Base K A1 cs heap1) (V : VI K hs0 A1 cs heap1 t ν 0 done) {x : ℕ} {rest next : List ℕ}
    (hsplit : K.D = done ++ x :: rest) (hd : x ∉ done) (hon : K.hon → hs0 = K.D.map (K.c 0)) :
    NodeOut K hs0 A1 cs heap1 0 (done ++ [x]) (pushParent next (vn K.n K.A0 A1 cs (tauF K.n K.D) ν (0, x)).parent)
      (vptNode K.n t next (cs.idxOf (0, x))) := by
  have hx : x ∈ Cn K.n K.D 0 := by show x ∈ K.D; rw [hsplit]; simp
  have take : done ++ [x] = K.D.take (done.length + 1) := by rw [hsplit, List.take_append]; simp
  have hm : (0, x) ∈ cs := (B.mem _ _).2 (Cn_sub B.ok.sane hx)
  have hin := B.inn hm
  have hlt : posOf (St.numRows K.n) 0 x < K.n := (pos_lt_iff B.ok.sane.n62 hin).2 rfl
  obtain ⟨p, z, hp, hg, hv⟩ := V.toVW.get B hm
  obtain ⟨hh, hhp⟩ := B.hold hm
  obtain ⟨j, hj⟩ := holder_addr hhp
  have v0 : ν 0 x = false := by
    by_contra hc
    simp only [Bool.not_eq_false] at hc
    obtain ⟨q, h, -⟩ := V.flags _ _ hc
    omega
  have tgt := V.tgt
  rw [if_pos rfl] at tgt
  have v1 : (vn K.n K.A0 A1 cs (tauF K.n K.D) ν (0, x)).target = true := by
    show tauF K.n K.D 0 x = true
    unfold tauF; simpa using hx
  have v2 : (vn K.n K.A0 A1 cs (tauF K.n K.D) ν (0, x)).valid = false := v0
  have v3 : (vn K.n K.A0 A1 cs (tauF K.n K.D) ν (0, x)).pos = posOf (St.numRows K.n) 0 x := rfl
  have v4 : (vn K.n K.A0 A1 cs (tauF K.n K.D) ν (0, x)).node = some p := hp
  have v5 : (vn K.n K.A0 A1 cs (tauF K.n K.D) ν (0, x)).sib = some hh := hhp
  have v6 : (vn K.n K.A0 A1 cs (tauF K.n K.D) ν (0, x)).cached = (K.A0 0 x).isSome := rfl
  have v7 : (vn K.n K.A0 A1 cs (tauF K.n K.D) ν (0, x)).sibCached = (rtOf K.n 0 x || (K.A0 0 (x ^^^ 1)).isSome) := rfl
  unfold vptNode
  rw [vecGet_ok (V.toVW.node hm)]
  simp only [ok_bind, v1, v2, v3, v4, v5, v6, v7, Bool.not_true, Bool.false_eq_true, if_false]
  rw [if_pos hlt]
  cases htg : t.targets with
  | nil =>
    right
    refine ⟨t, ν, _, rfl, ?_, V.toVW⟩
    intro hn
    rw [htg, hon hn, hsplit] at tgt
    have := congrArg List.length tgt
    simp at this
  | cons th ths =>
    have hth : K.hon → th = K.c 0 x := by
      intro hn
      rw [htg, hon hn, hsplit, List.map_append, List.map_append, List.map_cons, List.map_cons, List.map_cons] at tgt
      have := List.append_inj_right tgt (by simp)
      have := (List.cons.inj this).1
      simpa using this.symm
    have hmatch : ((K.A0 0 x).isSome → th = K.c 0 x) → Match K (done.length + 1) := by
      intro hth' i u hi hu hA
      have h1 : (hs0.map some)[i]? = some (some (K.c 0 u)) := by
        rw [tgt, htg]
        rw [hsplit] at hu
        by_cases h : i < done.length
        · rw [List.getElem?_append_left (by rw [List.length_map]; exact h), List.getElem?_map]
          rw [List.getElem?_append_left h] at hu
          rw [hu]
          exact congrArg some (V.toVW.cached B hA)
        · obtain rfl : i = done.length := by omega
          rw [List.getElem?_append_right (by simp)] at hu ⊢
          simp only [Nat.sub_self, List.getElem?_cons_zero, Option.some.injEq] at hu
          subst hu
          simp [hth' hA]
      rw [← V.same]
      rw [List.getElem?_map] at h1
      cases hi' : hs0[i]? with
      | none => rw [hi'] at h1; simp at h1
      | some v => rw [hi'] at h1; simpa using h1
    simp only []
    rw [deref_ok hg, ok_bind]
    obtain ⟨ν', e1, e2⟩ := markIf B V.toVW hm ((K.A0 0 x).isSome && (rtOf K.n 0 x || (K.A0 0 (x ^^^ 1)).isSome)) ν
    cases h0 : K.A0 0 x with
    | some p' =>
      have hc : val t.heap A1 0 x = some (K.c 0 x) := V.toVW.cached B (by rw [h0]; rfl)
      have hzc : z.hash = K.c 0 x := by rw [hv] at hc; simpa using hc
      rw [h0] at e1 e2
      by_cases hne : z.hash = th
      · have hif : ¬ (((some p').isSome && decide (z.hash ≠ th)) = true) := by simp [hne]
        rw [if_neg hif]
        simp only [Option.isSome_some, if_true, pure_ok, ok_bind]
        simp only [Option.isSome_some] at e1
        obtain ⟨y, hy⟩ := V.shape.get hj
        have w : store t.heap (some hh) { y with n0 := some remember } = .ok _ := store_ok (lt_of_get hy) _
        rw [deref_ok hy, ok_bind, w, ok_bind]
        left
        refine ⟨_, ν', rfl, ?_⟩
        have F := (V.fdone rfl).setFlag hy hhp
        have hM := hmatch fun _ => by rw [← hne, hzc]
        refine V.step B hx hd (V.toVW.setFlag hj hy ⟨x, hx, hhp⟩ ⟨done.length + 1, take ▸ F, hM⟩ rfl e1) ?_ ?_ ?_ ?_ ?_ ?_ ?_ ?_ (fun _ => F)
        · intro r u _
          exact val_setFlag hy _ r u
        · intro r u hru
          rcases e2 r u hru with h | ⟨a1, a2, a3, a4⟩
          · exact .inl h
          · refine .inr ⟨a2, a3, a4, ?_, ?_⟩
            · rw [a4] at a1; simpa using a1
            · show val (t.heap.set hh _) A1 0 x = _
              rw [val_setFlag hy]; exact hc
        · intro q hq; omega
        · intro _
          refine ⟨th, ?_, htg⟩
          show val (t.heap.set hh _) A1 0 x = _
          rw [val_setFlag hy, hv, hne]
        · intro h; exact absurd rfl h
        · intro u hu
          show (nz (t.heap.set hh _) _ 0).isSome
          cases hu' : holder (rtOf K.n) A1 0 u with
          | none => rw [hu'] at hu; simp [nz] at hu
          | some pu =>
            rw [hu'] at hu
            rw [nz_set (lt_of_get hy)]
            split
            · rfl
            · exact hu
        · intro _
          show (nz (t.heap.set hh _) _ 0).isSome
          rw [hhp, nz_set (lt_of_get hy), if_pos rfl]; rfl
        · intro _
          show val (t.heap.set hh _) A1 0 x = _
          rw [val_setFlag hy]; exact hc
      · have hif : ((some p').isSome && decide (z.hash ≠ th)) = true := by simp [hne]
        rw [if_pos hif]
        right
        refine ⟨t, ν, _, rfl, ?_, V.toVW⟩
        intro hn
        exact hne (by rw [hth hn, hzc])
    | none =>
      rw [h0] at e1 e2
      have hif : ¬ ((((none : Option ℕ).isSome) && decide (z.hash ≠ th)) = true) := by simp
      rw [if_neg hif]
      simp only [Option.isSome_none, Bool.false_and, Bool.false_eq_true, if_false] at e1 e2 ⊢
      have w : store t.heap (some p) { z with hash := th } = .ok _ := store_ok (lt_of_get hg) _
      rw [w, ok_bind]
      obtain ⟨s1, s2⟩ := val_setHash V.shape hp hg th
      have W1 := V.toVW.setHash (t' := VPT.mk (t.heap.set p { z with hash := th }) t.arena ths) B hx h0 hp hg th rfl e1
      obtain ⟨y, hy⟩ := W1.shape.get hj
      have w2 : store (t.heap.set p { z with hash := th }) (some hh) { y with n0 := some remember } = .ok _ := store_ok (lt_of_get hy) _
      have hy' : (t.heap.set p { z with hash := th })[hh]? = some y := hy
      rw [deref_ok hy', ok_bind, w2, ok_bind]
      left
      refine ⟨_, ν', rfl, ?_⟩
      have F := ((V.fdone rfl).setHash hg th).setFlag hy' hhp
      have hM := hmatch fun h => by rw [h0] at h; simp at h
      refine V.step B hx hd (W1.setFlag hj hy ⟨x, hx, hhp⟩ ⟨done.length + 1, take ▸ F, hM⟩ rfl e1) ?_ ?_ ?_ ?_ ?_ ?_ ?_ ?_ (fun _ => F)
      · intro r u hne
        show val ((t.heap.set p _).set hh _) A1 r u = _
        rw [val_setFlag hy', s2 r u hne]
      · intro r u hru
        rcases e2 r u hru with h | ⟨a1, _⟩
        · exact .inl h
        · exact absurd a1 (by simp)
      · intro q hq; omega
      · intro _
        refine ⟨th, ?_, htg⟩
        show val ((t.heap.set p _).set hh _) A1 0 x = _
        rw [val_setFlag hy', s1]
      · intro h; exact absurd rfl h
      · intro u hu
        show (nz ((t.heap.set p _).set hh _) _ 0).isSome
        cases hu' : holder (rtOf K.n) A1 0 u with
        | none => rw [hu'] at hu; simp [nz] at hu
        | some pu =>
          rw [hu'] at hu
          rw [nz_set (lt_of_get hy')]
          split
          · rfl
          · rw [nz_setHash hg]; exact hu
      · intro _
        show (nz ((t.heap.set p _).set hh _) _ 0).isSome
        rw [hhp, nz_set (lt_of_get hy'), if_pos rfl]; rfl
      · intro hn
        show val ((t.heap.set p _).set hh _) A1 0 x = _
        rw [val_setFlag hy', s1, hth hn]

end

section
variable {K : Ctx H} {hs0 : List H} {A1 : Addr} {cs : List (ℕ × ℕ)} {heap1 : List (INode H)} {t : VPT H} {ν : ℕ → ℕ → Bool}
  {k : ℕ} {done : List ℕ}

/-- What the flag of a node says. -/
theorem VI.valid (B : Base K A1 cs heap1) (V : VI K hs0 A1 cs heap1 t ν k done) {q x : ℕ} (h : ν (q + 1) x = true) :
    (rtOf K.n (q + 1) x = false → (K.A0 (q + 1) (x ^^^ 1)).isSome = true) ∧
    val t.heap A1 q (2 * x) = some (K.c q (2 * x)) ∧ val t.heap A1 q (2 * x + 1) = some (K.c q (2 * x + 1)) := by
  obtain ⟨q', e, h1, h2⟩ := V.flags _ _ h
  obtain rfl : q = q' := by omega
  have key : ∀ b, b < 2 → val t.heap A1 q (2 * x + b) = some (K.c q (2 * x + b)) := by
    intro b hb
    rcases h2 b hb with h | h
    · exact V.toVW.cached B h
    · exact h.2
  refine ⟨?_, key 0 (by omega), key 1 (by omega)⟩
  intro hr
  obtain ⟨p, hp⟩ := Option.isSome_iff_exists.1 h1
  rcases holder_some hp with ⟨a, _⟩ | ⟨_, _, a⟩
  · rw [hr] at a; simp at a
  · rw [a]; rfl

/-- Honest children. -/
theorem VI.kidsHon (B : Base K A1 cs heap1) (V : VI K hs0 A1 cs heap1 t ν k done) {q x : ℕ} (hk : k = q + 1)
    (hx : x ∈ Cn K.n K.D k) (hn : K.hon) {b : ℕ} (hb : b < 2) : val t.heap A1 q (2 * x + b) = some (K.c q (2 * x + b)) := by
  subst hk
  have hm := (B.mem _ _).1 (B.kid hb hx)
  rcases (Vn_cases B.ok.sane).1 hm with h | h
  · exact V.hon hn _ _ (.inl ⟨by omega, h⟩)
  · rw [V.prf _ _ h]; exact B.good hn _ _ h

theorem vptNode_inner (B : Base K A1 cs heap1) {q : ℕ} (V : VI K hs0 A1 cs heap1 t ν (q + 1) done) {x : ℕ} {next : List ℕ}
    (hx : x ∈ Cn K.n K.D (q + 1)) (hd : x ∉ done) :
    NodeOut K hs0 A1 cs heap1 (q + 1) (done ++ [x]) (pushParent next (vn K.n K.A0 A1 cs (tauF K.n K.D) ν (q + 1, x)).parent)
      (vptNode K.n t next (cs.idxOf (q + 1, x))) := by
  have hm : (q + 1, x) ∈ cs := (B.mem _ _).2 (Cn_sub B.ok.sane hx)
  have hin := B.inn hm
  have hlt : ¬ posOf (St.numRows K.n) (q + 1) x < K.n := by
    rw [pos_lt_iff B.ok.sane.n62 hin]; omega
  obtain ⟨p, z, hp, hg, hv⟩ := V.toVW.get B hm
  obtain ⟨a, b, ha, hb, hch⟩ := childrenHash_ok V.toVW B hx
  have v1 : (vn K.n K.A0 A1 cs (tauF K.n K.D) ν (q + 1, x)).target = true := by
    show tauF K.n K.D (q + 1) x = true
    unfold tauF; simpa using hx
  have v2 : (vn K.n K.A0 A1 cs (tauF K.n K.D) ν (q + 1, x)).valid = ν (q + 1) x := rfl
  have v3 : (vn K.n K.A0 A1 cs (tauF K.n K.D) ν (q + 1, x)).pos = posOf (St.numRows K.n) (q + 1) x := rfl
  have v4 : (vn K.n K.A0 A1 cs (tauF K.n K.D) ν (q + 1, x)).node = some p := hp
  have v6 : (vn K.n K.A0 A1 cs (tauF K.n K.D) ν (q + 1, x)).cached = (K.A0 (q + 1) x).isSome := rfl
  have v7 : (vn K.n K.A0 A1 cs (tauF K.n K.D) ν (q + 1, x)).sibCached = (rtOf K.n (q + 1) x || (K.A0 (q + 1) (x ^^^ 1)).isSome) := rfl
  have honc : K.hon → HashOps.ph a b = K.c (q + 1) x := by
    intro hn
    have h0 := V.kidsHon B rfl hx hn (b := 0) (by omega)
    have h1 := V.kidsHon B rfl hx hn (b := 1) (by omega)
    rw [Nat.add_zero, ha] at h0
    rw [hb] at h1
    simp only [Option.some.injEq] at h0 h1
    rw [h0, h1, B.ok.tree]
  have hvc : ν (q + 1) x = true → HashOps.ph a b = K.c (q + 1) x := by
    intro hn
    obtain ⟨-, h0, h1⟩ := V.valid B hn
    rw [ha] at h0
    rw [hb] at h1
    simp only [Option.some.injEq] at h0 h1
    rw [h0, h1, B.ok.tree]
  obtain ⟨ν1, e1, e2⟩ := markIf B V.toVW hm (ν (q + 1) x) ν
  unfold vptNode
  rw [vecGet_ok (V.toVW.node hm)]
  simp only [ok_bind, v1, v2, v3, v4, v6, v7, Bool.not_true, Bool.false_eq_true, if_false]
  rw [if_neg hlt]
  cases hval : ν (q + 1) x with
  | false =>
    simp only [Bool.false_eq_true, if_false, Bool.not_false, Bool.true_and]
    rw [hch]
    simp only [ok_bind]
    cases h0 : K.A0 (q + 1) x with
    | some p' =>
      have hc : val t.heap A1 (q + 1) x = some (K.c (q + 1) x) := V.toVW.cached B (by rw [h0]; rfl)
      have hzc : z.hash = K.c (q + 1) x := by rw [hv] at hc; simpa using hc
      simp only [Option.isSome_some, if_true]
      rw [deref_ok hg, ok_bind]
      by_cases hne : HashOps.ph a b = z.hash
      · rw [if_neg (by simp [hne])]
        obtain ⟨ν', f1, f2⟩ := markIf B V.toVW hm (rtOf K.n (q + 1) x || (K.A0 (q + 1) (x ^^^ 1)).isSome) ν
        left
        refine ⟨_, ν', rfl, ?_⟩
        refine V.step B hx hd (V.toVW.setArena rfl f1) (fun _ _ _ => rfl) ?_ ?_ (by omega) (fun _ => rfl) (fun _ h => h) (by omega) ?_ (by omega)
        · intro r u hru
          rcases f2 r u hru with h | ⟨a1, a2, a3, a4⟩
          · exact .inl h
          · exact .inr ⟨a2, a3, a4, by rw [a4] at a1; simpa using a1, hc⟩
        · intro q' hq
          obtain rfl : q = q' := by omega
          exact .inr ⟨a, b, ha, hb, by show val t.heap A1 (q + 1) x = _; rw [hv, hne]⟩
        · intro _; exact hc
      · rw [if_pos hne]
        right
        refine ⟨t, ν, _, rfl, ?_, V.toVW⟩
        intro hn
        exact hne (by rw [honc hn, hzc])
    | none =>
      simp only [Option.isSome_none, Bool.false_eq_true, if_false]
      have w : store t.heap (some p) { z with hash := HashOps.ph a b } = .ok _ := store_ok (lt_of_get hg) _
      have hrt : rtOf K.n (q + 1) x = false := by
        by_contra hc
        simp only [Bool.not_eq_false] at hc
        have := B.ok.shape.root _ _ hc
        rw [h0] at this; simp at this
      have hpar : (vn K.n K.A0 A1 cs (tauF K.n K.D) ν (q + 1, x)).parent.isSome = true := by
        show (if rtOf K.n (q + 1) x then none else some (cs.idxOf (q + 1 + 1, x / 2)) : Option ℕ).isSome = true
        rw [hrt]; rfl
      rw [deref_ok hg, ok_bind, w, ok_bind, hpar]
      simp only [cassert, if_true, ok_bind]
      obtain ⟨s1, s2⟩ := val_setHash V.shape hp hg (HashOps.ph a b)
      left
      refine ⟨_, ν, rfl, ?_⟩
      refine V.step B hx hd (V.toVW.setHash B hx h0 hp hg _ rfl V.arena) s2 (fun r u h => .inl h) ?_ (by omega) (fun _ => rfl) ?_ (by omega) ?_ (by omega)
      · intro q' hq
        obtain rfl : q = q' := by omega
        exact .inr ⟨a, b, ha, hb, s1⟩
      · intro u hu
        show (nz (t.heap.set p _) _ 0).isSome
        rw [nz_setHash hg]; exact hu
      · intro hn
        show val (t.heap.set p _) A1 (q + 1) x = _
        rw [s1, honc hn]
  | true =>
    obtain ⟨c1, c2, c3⟩ := V.valid B hval
    rw [hval] at e1 e2
    simp only [if_true, Bool.not_true, Bool.false_and, Bool.false_eq_true, if_false, Bool.true_and] at e1 ⊢
    cases h0 : K.A0 (q + 1) x with
    | some p' =>
      have hc : val t.heap A1 (q + 1) x = some (K.c (q + 1) x) := V.toVW.cached B (by rw [h0]; rfl)
      simp only [Option.isSome_some, if_true]
      left
      refine ⟨_, ν1, rfl, ?_⟩
      refine V.step B hx hd (V.toVW.setArena rfl e1) (fun _ _ _ => rfl) ?_ ?_ (by omega) (fun _ => rfl) (fun _ h => h) (by omega) ?_ (by omega)
      · intro r u hru
        rcases e2 r u hru with h | ⟨a1, a2, a3, a4⟩
        · exact .inl h
        · exact .inr ⟨a2, a3, a4, c1 a4, hc⟩
      · intro q' hq
        obtain rfl : q = q' := by omega
        exact .inl ⟨c2, c3⟩
      · intro _; exact hc
    | none =>
      simp only [Option.isSome_none, Bool.false_eq_true, if_false]
      rw [hch]
      simp only [ok_bind]
      have w : store t.heap (some p) { z with hash := HashOps.ph a b } = .ok _ := store_ok (lt_of_get hg) _
      have hrt : rtOf K.n (q + 1) x = false := by
        by_contra hc
        simp only [Bool.not_eq_false] at hc
        have := B.ok.shape.root _ _ hc
        rw [h0] at this; simp at this
      have hpar : (vn K.n K.A0 A1 cs (tauF K.n K.D) ν (q + 1, x)).parent.isSome = true := by
        show (if rtOf K.n (q + 1) x then none else some (cs.idxOf (q + 1 + 1, x / 2)) : Option ℕ).isSome = true
        rw [hrt]; rfl
      rw [deref_ok hg, ok_bind, w, ok_bind, hpar]
      simp only [cassert, if_true, ok_bind]
      obtain ⟨s1, s2⟩ := val_setHash V.shape hp hg (HashOps.ph a b)
      left
      refine ⟨_, ν1, rfl, ?_⟩
      refine V.step B hx hd (V.toVW.setHash B hx h0 hp hg _ rfl e1) s2 ?_ ?_ (by omega) (fun _ => rfl) ?_ (by omega) ?_ (by omega)
      · intro r u hru
        rcases e2 r u hru with h | ⟨a1, a2, a3, a4⟩
        · exact .inl h
        · refine .inr ⟨a2, a3, a4, c1 a4, ?_⟩
          show val (t.heap.set p _) A1 (q + 1) x = _
          rw [s1, hvc hval]
      · intro q' hq
        obtain rfl : q = q' := by omega
        exact .inl ⟨c2, c3⟩
      · intro u hu
        show (nz (t.heap.set p _) _ 0).isSome
        rw [nz_setHash hg]; exact hu
      · intro _
        show val (t.heap.set p _) A1 (q + 1) x = _
        rw [s1, hvc hval]

end

/-! ## Rows -/

/-- `pl` are the parents of `done`. -/
structure NextOk (n k : ℕ) (pl done : List ℕ) : Prop where
  sorted : pl.Pairwise (· < ·)
  mem : ∀ y, y ∈ pl ↔ ∃ x ∈ done, rtOf n k x = false ∧ x / 2 = y

theorem idx_inj {cs : List (ℕ × ℕ)} {a b : ℕ × ℕ} (ha : a ∈ cs) (h : cs.idxOf a = cs.idxOf b) (hb : b ∈ cs) : a = b := by
  have h1 := List.getElem?_idxOf ha
  rw [h, List.getElem?_idxOf hb] at h1
  simpa using h1.symm

section
variable {K : Ctx H} {hs0 : List H} {A1 : Addr} {cs : List (ℕ × ℕ)} {heap1 : List (INode H)}

theorem push_ok (B : Base K A1 cs heap1) {k x : ℕ} {pl done : List ℕ} (N : NextOk K.n k pl done) (hm : (k, x) ∈ cs)
    (hpl : ∀ y ∈ pl, (k + 1, y) ∈ cs) (hlt : ∀ d ∈ done, d < x) (ν : ℕ → ℕ → Bool) :
    ∃ pl', pushParent (pl.map fun y => cs.idxOf (k + 1, y)) (vn K.n K.A0 A1 cs (tauF K.n K.D) ν (k, x)).parent =
        pl'.map (fun y => cs.idxOf (k + 1, y)) ∧ NextOk K.n k pl' (done ++ [x]) ∧ ∀ y ∈ pl', (k + 1, y) ∈ cs := by
  have hpar : (vn K.n K.A0 A1 cs (tauF K.n K.D) ν (k, x)).parent = if rtOf K.n k x then none else some (cs.idxOf (k + 1, x / 2)) := rfl
  rw [hpar]
  cases hr : rtOf K.n k x with
  | true =>
    refine ⟨pl, rfl, ⟨N.sorted, ?_⟩, hpl⟩
    intro y
    rw [N.mem]
    constructor
    · rintro ⟨u, hu, h⟩; exact ⟨u, List.mem_append_left _ hu, h⟩
    · rintro ⟨u, hu, h⟩
      rcases List.mem_append.1 hu with hu | hu
      · exact ⟨u, hu, h⟩
      · rw [List.mem_singleton.1 hu, hr] at h; simp at h
  | false =>
    have hp := B.parent hm hr
    have hle : ∀ y ∈ pl, y ≤ x / 2 := by
      intro y hy
      obtain ⟨u, hu, -, rfl⟩ := (N.mem y).1 hy
      have := hlt u hu; omega
    have hmem : ∀ y, (y ∈ pl ∨ y = x / 2) ↔ ∃ u ∈ done ++ [x], rtOf K.n k u = false ∧ u / 2 = y := by
      intro y
      rw [N.mem]
      constructor
      · rintro (⟨u, hu, h⟩ | rfl)
        · exact ⟨u, List.mem_append_left _ hu, h⟩
        · exact ⟨x, by simp, hr, rfl⟩
      · rintro ⟨u, hu, h⟩
        rcases List.mem_append.1 hu with hu | hu
        · exact .inl ⟨u, hu, h⟩
        · rw [List.mem_singleton.1 hu] at h; exact .inr h.2.symm
    simp only [Bool.false_eq_true, if_false]
    unfold pushParent
    simp only []
    by_cases hl : x / 2 ∈ pl
    · obtain ⟨l', hl'⟩ := sorted_last N.sorted hl hle
      rw [if_pos (by rw [hl']; simp)]
      refine ⟨pl, rfl, ⟨N.sorted, fun y => ?_⟩, hpl⟩
      rw [← hmem y]
      constructor
      · exact .inl
      · rintro (h | rfl)
        · exact h
        · exact hl
    · rw [if_neg]
      · refine ⟨pl ++ [x / 2], by simp, ⟨?_, ?_⟩, ?_⟩
        · rw [List.pairwise_append]
          refine ⟨N.sorted, by simp, ?_⟩
          intro a ha b hb
          rw [List.mem_singleton.1 hb]
          have := hle a ha
          rcases Nat.lt_or_ge a (x / 2) with h | h
          · exact h
          · exact absurd (by rw [show x / 2 = a by omega]; exact ha) hl
        · intro y
          rw [← hmem y, List.mem_append, List.mem_singleton]
        · intro y hy
          rcases List.mem_append.1 hy with hy | hy
          · exact hpl y hy
          · rw [List.mem_singleton.1 hy]; exact hp
      · intro h
        rw [List.getLast?_map] at h
        cases hg : pl.getLast? with
        | none => rw [hg] at h; simp at h
        | some u =>
          rw [hg] at h
          simp only [Option.map_some, Option.some.injEq] at h
          have hu : u ∈ pl := List.mem_of_getLast? hg
          have := idx_inj (hpl u hu) h hp
          simp only [Prod.mk.injEq, true_and] at this
          exact hl (this ▸ hu)

theorem vptRow_ok (B : Base K A1 cs heap1) (hon : K.hon → hs0 = K.D.map (K.c 0)) {k : ℕ} :
    ∀ (l : List ℕ) (t : VPT H) (ν : ℕ → ℕ → Bool) (done pl : List ℕ), VI K hs0 A1 cs heap1 t ν k done →
    l.Pairwise (· < ·) → (∀ y ∈ l, y ∈ Vn K.n K.D k) → (∀ d ∈ done, ∀ y ∈ l, d < y) →
    done ++ l.filter (fun x => decide (x ∈ Cn K.n K.D k)) = Cn K.n K.D k → NextOk K.n k pl done → (∀ y ∈ pl, (k + 1, y) ∈ cs) →
    NodeOut K hs0 A1 cs heap1 k (Cn K.n K.D k) ((Cn K.n K.D (k + 1)).map fun y => cs.idxOf (k + 1, y))
      (vptRow K.n (l.map fun y => cs.idxOf (k, y)) t (pl.map fun y => cs.idxOf (k + 1, y))) := by
  intro l
  induction l with
  | nil =>
    intro t ν done pl V _ _ _ hC N _
    left
    rw [List.filter_nil, List.append_nil] at hC
    refine ⟨t, ν, ?_, hC ▸ V⟩
    have : pl = Cn K.n K.D (k + 1) := by
      apply sorted_ext B.ok.sane N.sorted (Cn_ok B.ok.sane (k + 1)).1
      intro y
      rw [N.mem, mem_Cn_succ B.ok.sane, hC]
      constructor
      · rintro ⟨u, hu, h1, h2⟩
        refine ⟨?_, u, hu, h2⟩
        by_contra hc
        rw [← h2] at hc
        rw [(rtOf_iff ((Cn_ok B.ok.sane k).2 u hu)).2 hc] at h1
        simp at h1
      · rintro ⟨h1, u, hu, h2⟩
        exact ⟨u, hu, rtOf_false (by rw [h2]; exact h1), h2⟩
    rw [this]
    rfl
  | cons x l ih =>
    intro t ν done pl V hs hv hlt hC N hpl
    obtain ⟨hs1, hs2⟩ := List.pairwise_cons.1 hs
    have hv' : ∀ y ∈ l, y ∈ Vn K.n K.D k := fun y hy => hv y (List.mem_cons_of_mem _ hy)
    have hm : (k, x) ∈ cs := (B.mem _ _).2 (hv x (by simp))
    rw [List.map_cons, vptRow]
    by_cases hx : x ∈ Cn K.n K.D k
    · have hd : x ∉ done := by
        intro h
        have := hlt x h x (by simp); omega
      rw [List.filter_cons_of_pos (by simpa using hx)] at hC
      obtain ⟨pl', e1, N', hpl'⟩ := push_ok B N hm hpl (fun d h => hlt d h x (by simp)) ν
      have step : NodeOut K hs0 A1 cs heap1 k (done ++ [x]) (pl'.map fun y => cs.idxOf (k + 1, y))
          (vptNode K.n t (pl.map fun y => cs.idxOf (k + 1, y)) (cs.idxOf (k, x))) := by
        rw [← e1]
        cases k with
        | zero => exact vptNode_leaf B V hC.symm hd hon
        | succ q => exact vptNode_inner B V hx hd
      rcases step with ⟨t', ν', e, V'⟩ | ⟨t', ν', nx, e, h1, W⟩
      · rw [e]
        simp only [ok_bind]
        refine ih t' ν' (done ++ [x]) pl' V' hs2 hv' ?_ (by rw [List.append_assoc]; exact hC) N' hpl'
        intro d hd' y hy
        rcases List.mem_append.1 hd' with h | h
        · exact hlt d h y (List.mem_cons_of_mem _ hy)
        · rw [List.mem_singleton.1 h]; exact hs1 y hy
      · rw [e]
        exact .inr ⟨t', ν', nx, rfl, h1, W⟩
    · rw [List.filter_cons_of_neg (by simpa using hx)] at hC
      have hno : vptNode K.n t (pl.map fun y => cs.idxOf (k + 1, y)) (cs.idxOf (k, x)) =
          .ok (.cont (t, pl.map fun y => cs.idxOf (k + 1, y))) := by
        unfold vptNode
        have v1 : (vn K.n K.A0 A1 cs (tauF K.n K.D) ν (k, x)).target = false := by
          show tauF K.n K.D k x = false
          unfold tauF; simpa using hx
        rw [vecGet_ok (V.toVW.node hm)]
        simp only [ok_bind, v1, Bool.not_false, if_true]
        rfl
      rw [hno]
      simp only [ok_bind]
      exact ih t ν done pl V hs2 hv' (fun d h y hy => hlt d h y (List.mem_cons_of_mem _ hy)) hC N hpl

theorem VI.up {t : VPT H} {ν : ℕ → ℕ → Bool} {k : ℕ} (V : VI K hs0 A1 cs heap1 t ν k (Cn K.n K.D k)) :
    VI K hs0 A1 cs heap1 t ν (k + 1) [] := by
  have e : ∀ r x, prc K.n K.D (k + 1) [] r x ↔ prc K.n K.D k (Cn K.n K.D k) r x := by
    intro r x
    unfold prc
    simp only [List.not_mem_nil, and_false, or_false]
    constructor
    · rintro ⟨h1, h2⟩
      by_cases hk : r = k
      · subst hk; exact .inr ⟨rfl, h2⟩
      · exact .inl ⟨by omega, h2⟩
    · rintro (h | ⟨rfl, h⟩)
      · exact ⟨by omega, h.2⟩
      · exact ⟨by omega, h⟩
  refine { V.toVW with flags := ?_, sem := ?_, tgt := ?_, flag := ?_, hon := ?_, fdone := fun h => absurd h (by omega), same := V.same }
  · intro r y h
    obtain ⟨q, h1, h2, h3⟩ := V.flags r y h
    refine ⟨q, h1, h2, ?_⟩
    intro b hb
    rw [e]; exact h3 b hb
  · intro r y h; rw [e] at h; exact V.sem r y h
  · have h := V.tgt
    rw [if_neg (by omega)]
    by_cases hk : k = 0
    · subst hk; exact h
    · rw [if_neg hk] at h; exact h
  · intro x h; rw [e] at h; exact V.flag x h
  · intro hh r x h; rw [e] at h; exact V.hon hh r x h

theorem Cn_above {n : ℕ} {D : List ℕ} (hD : Sane n D) {k : ℕ} (h : Cn n D k = []) : ∀ j, Cn n D (k + j) = [] := by
  intro j
  induction j with
  | zero => exact h
  | succ j ih =>
    rw [List.eq_nil_iff_forall_not_mem]
    intro x hx
    obtain ⟨-, y, hy, -⟩ := (mem_Cn_succ hD (k := k + j)).1 hx
    rw [ih] at hy; simp at hy

/-- End of the check. -/
structure Done (K : Ctx H) (hs0 : List H) (A1 : Addr) (cs : List (ℕ × ℕ)) (heap1 : List (INode H)) (t : VPT H) (ν : ℕ → ℕ → Bool) : Prop
    extends VW K A1 cs heap1 t ν where
  sem : ∀ r y, y ∈ Cn K.n K.D (r + 1) →
    (val t.heap A1 r (2 * y) = some (K.c r (2 * y)) ∧ val t.heap A1 r (2 * y + 1) = some (K.c r (2 * y + 1))) ∨
    ∃ a b, val t.heap A1 r (2 * y) = some a ∧ val t.heap A1 r (2 * y + 1) = some b ∧ val t.heap A1 (r + 1) y = some (HashOps.ph a b)
  tgt : hs0.map some = K.D.map (val t.heap A1 0) ++ t.targets.map some
  flag : ∀ x ∈ K.D, (nz t.heap (holder (rtOf K.n) A1 0 x) 0).isSome
  hon : K.hon → ∀ r x, x ∈ Cn K.n K.D r → val t.heap A1 r x = some (K.c r x)

theorem vptRows_ok (B : Base K A1 cs heap1) (hon : K.hon → hs0 = K.D.map (K.c 0)) :
    ∀ (fuel k : ℕ) (t : VPT H) (ν : ℕ → ℕ → Bool), St.numRows K.n + 2 ≤ fuel + k → VI K hs0 A1 cs heap1 t ν (k + 1) [] →
    (∃ t' ν', vptRows K.n fuel t ((Cn K.n K.D (k + 1)).map fun y => cs.idxOf (k + 1, y)) = .ok (true, t') ∧ Done K hs0 A1 cs heap1 t' ν') ∨
    (∃ t' ν', vptRows K.n fuel t ((Cn K.n K.D (k + 1)).map fun y => cs.idxOf (k + 1, y)) = .ok (false, t') ∧ ¬ K.hon ∧
      VW K A1 cs heap1 t' ν') ∨ fuel = 0 := by
  intro fuel
  induction fuel with
  | zero => intro k t ν _ _; exact .inr (.inr rfl)
  | succ fuel ih =>
    intro k t ν hf V
    rw [vptRows]
    by_cases hC : Cn K.n K.D (k + 1) = []
    · left
      refine ⟨t, ν, by rw [hC]; rfl, ?_⟩
      have hp : ∀ r x, x ∈ Cn K.n K.D r → prc K.n K.D (k + 1) [] r x := by
        intro r x hx
        rcases Nat.lt_or_ge r (k + 1) with h | h
        · exact .inl ⟨h, hx⟩
        · have := Cn_above B.ok.sane hC (r - (k + 1))
          rw [show k + 1 + (r - (k + 1)) = r by omega] at this
          rw [this] at hx; simp at hx
      refine { V.toVW with sem := ?_, tgt := ?_, flag := ?_, hon := ?_ }
      · intro r y h; exact V.sem r y (hp _ _ h)
      · have := V.tgt
        rw [if_neg (by omega)] at this
        exact this
      · intro x hx; exact V.flag x (hp 0 x hx)
      · intro hh r x h; exact V.hon hh r x (hp _ _ h)
    · have hk : k + 1 ≤ St.numRows K.n := by
        by_contra hc
        exact hC (Cn_top B.ok.sane (by omega))
      have hne : ((Cn K.n K.D (k + 1)).map fun y => cs.idxOf (k + 1, y)).isEmpty = false := by
        rw [List.isEmpty_eq_false_iff]
        intro h
        exact hC (List.map_eq_nil_iff.1 h)
      rw [hne]
      simp only [Bool.false_eq_true, if_false]
      have h := vptRow_ok B hon (k := k + 1) (Cn K.n K.D (k + 1)) t ν [] [] V (Cn_ok B.ok.sane _).1 (fun y hy => Cn_sub B.ok.sane hy)
        (by simp) (by rw [List.nil_append]; apply List.filter_eq_self.2; simp) ⟨by simp, by simp⟩ (by simp)
      rw [List.map_nil] at h
      rcases h with ⟨t', ν', e, V'⟩ | ⟨t', ν', nx, e, h1, W⟩
      · rw [e]
        simp only [ok_bind]
        rcases ih (k + 1) t' ν' (by omega) V'.up with h | h | h
        · exact .inl h
        · exact .inr (.inl h)
        · omega
      · rw [e]
        exact .inr (.inl ⟨t', ν', rfl, h1, W⟩)

/-- What `VerifyProofTree` returns. -/
theorem verifyProofTree_ok (B : Base K A1 cs heap1) (hon : K.hon → hs0 = K.D.map (K.c 0)) {t : VPT H} (hD : K.D ≠ [])
    (V : VI K hs0 A1 cs heap1 t (fun _ _ => false) 0 []) :
    (∃ t' ν', verifyProofTree K.n t ((Vn K.n K.D 0).map fun y => cs.idxOf (0, y)) = .ok (true, t') ∧ Done K hs0 A1 cs heap1 t' ν' ∧
      t'.targets = []) ∨
    (∃ t' ν', verifyProofTree K.n t ((Vn K.n K.D 0).map fun y => cs.idxOf (0, y)) = .ok (false, t') ∧ ¬ K.hon ∧
      VW K A1 cs heap1 t' ν') := by
  have hR := numRows_le_62 B.ok.sane.n62
  unfold verifyProofTree
  rw [vptRows]
  have hne : ((Vn K.n K.D 0).map fun y => cs.idxOf (0, y)).isEmpty = false := by
    rw [List.isEmpty_eq_false_iff]
    intro h
    obtain ⟨x, hx⟩ := List.exists_mem_of_ne_nil _ hD
    have := Cn_sub B.ok.sane (k := 0) hx
    rw [List.map_eq_nil_iff.1 h] at this; simp at this
  rw [hne]
  simp only [Bool.false_eq_true, if_false]
  have h := vptRow_ok B hon (k := 0) (Vn K.n K.D 0) t _ [] [] V (Vn_sorted B.ok.sane _) (fun y hy => hy)
    (by simp) (by rw [List.nil_append]; exact Vn_comp B.ok.sane 0) ⟨by simp, by simp⟩ (by simp)
  rw [List.map_nil] at h
  rcases h with ⟨t', ν', e, V'⟩ | ⟨t', ν', nx, e, h1, W⟩
  · rw [e]
    simp only [ok_bind]
    rcases vptRows_ok B hon 66 0 t' ν' (by omega) V'.up with ⟨t2, ν2, e2, d2⟩ | ⟨t2, ν2, e2, d2⟩ | h
    · rw [e2]
      simp only [ok_bind, pure_ok, Bool.true_and]
      cases ht : t2.targets with
      | nil => exact .inl ⟨t2, ν2, rfl, d2, ht⟩
      | cons a l =>
        refine .inr ⟨t2, ν2, rfl, ?_, d2.toVW⟩
        intro hn
        have h1 := d2.tgt
        rw [hon hn, ht] at h1
        have := congrArg List.length h1
        simp at this
    · rw [e2]
      exact .inr ⟨t2, ν2, rfl, d2⟩
    · omega
  · rw [e]
    exact .inr ⟨t', ν', rfl, h1, W⟩

end

end Pol
end Utreexo
