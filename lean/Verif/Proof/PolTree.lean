import Verif.Proof.PolPlan

/-! # Building the proof tree of `Pollard::Verify` -/

set_option linter.unusedSectionVars false

namespace Utreexo
open Spec Equiv

variable {H : Type} [DecidableEq H] [HashOps H]

namespace Pol

/-! ## Hooking in missing nodes -/

theorem nz_out {heap : List (INode H)} {t : ℕ} (h : heap.length ≤ t) (b : ℕ) : nz heap (some t) b = none := by
  unfold nz
  rw [Option.bind_some, List.getElem?_eq_none h]; rfl

theorem hookMissing_ok {heap : List (INode H)} {rt : ℕ → ℕ → Bool} {A : Addr} (s : Shape heap rt A) {q x b p : ℕ}
    (hp : holder rt A (q + 1) x = some p) (hb : b < 2) (hrt : rt q (2 * x + b) = false) :
    ∃ (heap' : List (INode H)) (A' : Addr), hookMissing heap (some p) b = .ok (heap', (A q (2 * x + b)).isNone) ∧
      Shape heap' rt A' ∧ (A' q (2 * x + b)).isSome ∧ (∀ r y, ¬ (r = q ∧ y = 2 * x + b) → A' r y = A r y) ∧
      (∀ t, A q (2 * x + b) = some t → A' q (2 * x + b) = some t) ∧
      (∀ t, A' q (2 * x + b) = some t → A q (2 * x + b) = none → heap.length ≤ t) ∧
      heap.length ≤ heap'.length ∧ (∀ t, t < heap.length → hz heap' t = hz heap t) ∧
      (∀ t, t < heap.length → t ≠ p → nz heap' (some t) 0 = nz heap (some t) 0) ∧
      ∀ t, heap.length ≤ t → nz heap' (some t) 0 = none := by
  obtain ⟨z, hz'⟩ := s.hget hp
  have hk := s.kids q (2 * x + b) hrt
  rw [show (2 * x + b) / 2 = x by omega, show (2 * x + b) % 2 = b by omega, hp, nz_some hz'] at hk
  unfold hookMissing
  rw [deref_ok hz', ok_bind, ← hk]
  cases hA : A q (2 * x + b) with
  | some t =>
    refine ⟨heap, A, rfl, s, by rw [hA]; rfl, fun _ _ _ => rfl, fun u hu => by rw [hA, hu], fun u _ h => by simp at h,
      le_rfl, fun _ _ => rfl, fun _ _ _ => rfl, fun t ht => nz_out ht 0⟩
  | none =>
    have hpl := lt_of_get hz'
    have hg : (heap ++ [fresh HashOps.zero])[p]? = some z := by rw [List.getElem?_append_left hpl]; exact hz'
    have hl : p < (heap ++ [fresh (H := H) HashOps.zero]).length := by simp; omega
    have w : store (heap ++ [{ hash := HashOps.zero, n0 := none, n1 := none }]) (some p)
        (INode.setNiece z b (some heap.length)) = .ok _ := store_ok hl _
    have s' := s.alloc (h0 := HashOps.zero) hp hz' hb hA hrt
    refine ⟨_, _, ?_, s', by rw [upd_self]; rfl, fun r y h => upd_ne h, fun t h => by simp at h, ?_, ?_, ?_, ?_, ?_⟩
    · show (deref (heap ++ [fresh HashOps.zero]) (some p) >>= _) = _
      rw [deref_ok hg, ok_bind, w]; rfl
    · intro t h _
      rw [upd_self] at h
      simp only [Option.some.injEq] at h; omega
    · simp
    · intro t ht
      rw [hz_set hl]
      by_cases e : t = p
      · subst e
        rw [if_pos rfl]
        have : (INode.setNiece z b (some heap.length)).hash = z.hash := by unfold INode.setNiece; split <;> rfl
        rw [this]; unfold hz; rw [hz']; rfl
      · rw [if_neg e]; unfold hz; rw [List.getElem?_append_left ht]
    · intro t ht hne
      rw [nz_set hl, if_neg hne, nz_append ht]
    · intro t ht
      rw [nz_set hl, if_neg (by omega)]
      rcases Nat.lt_or_ge heap.length t with h | h
      · exact nz_out (by simp; omega) 0
      · have : t = heap.length := by omega
        subst this
        unfold nz; simp [fresh, INode.niece]

/-- The node object of the proof tree for node `x` of row `r`. -/
def vn (n : ℕ) (A0 A1 : Addr) (cs : List (ℕ × ℕ)) (τ ν : ℕ → ℕ → Bool) (e : ℕ × ℕ) : VNode where
  node := A1 e.1 e.2
  sib := holder (rtOf n) A1 e.1 e.2
  parent := if rtOf n e.1 e.2 then none else some (cs.idxOf (e.1 + 1, e.2 / 2))
  pos := posOf (St.numRows n) e.1 e.2
  valid := ν e.1 e.2
  target := τ e.1 e.2
  cached := (A0 e.1 e.2).isSome
  sibCached := rtOf n e.1 e.2 || (A0 e.1 (e.2 ^^^ 1)).isSome

/-- The two children made by `InitChildrenOfComputed`. -/
def kidNode (p s : Option ℕ) (id pos : ℕ) (c sc : Bool) : VNode where
  node := p
  sib := s
  parent := some id
  pos := pos
  valid := false
  target := false
  cached := c
  sibCached := sc

theorem initChildren_ok {heap : List (INode H)} {n : ℕ} {A : Addr} (hn : n ≤ 2 ^ 62) (s : Shape heap (rtOf n) A) {q x p id : ℕ}
    {v : VNode} (hx : x < n / 2 ^ (q + 1)) (hp : holder (rtOf n) A (q + 1) x = some p) (hv : v.sib = some p)
    (hpos : v.pos = posOf (St.numRows n) (q + 1) x) :
    ∃ (heap' : List (INode H)) (A' : Addr), initChildren n heap id v = .ok (heap',
        kidNode (A' q (2 * x)) (A' q (2 * x + 1)) id (posOf (St.numRows n) q (2 * x)) (A q (2 * x)).isSome (A q (2 * x + 1)).isSome,
        kidNode (A' q (2 * x + 1)) (A' q (2 * x)) id (posOf (St.numRows n) q (2 * x + 1)) (A q (2 * x + 1)).isSome (A q (2 * x)).isSome,
        (A q (2 * x)).isNone, (A q (2 * x + 1)).isNone) ∧
      Shape heap' (rtOf n) A' ∧ (A' q (2 * x)).isSome ∧ (A' q (2 * x + 1)).isSome ∧
      (∀ r y, ¬ (r = q ∧ y / 2 = x) → A' r y = A r y) ∧ (∀ r y t, A r y = some t → A' r y = some t) ∧
      (∀ r y t, A' r y = some t → A r y = none → heap.length ≤ t ∧ r = q ∧ y / 2 = x) ∧
      heap.length ≤ heap'.length ∧ (∀ t, t < heap.length → hz heap' t = hz heap t) ∧
      (∀ t, t < heap.length → t ≠ p → nz heap' (some t) 0 = nz heap (some t) 0) ∧
      ∀ t, heap.length ≤ t → nz heap' (some t) 0 = none := by
  obtain ⟨hr, hi⟩ := row_le hn hx
  have hR := numRows_le_62 hn
  have r0 : rtOf n q (2 * x + 0) = false := rtOf_false (by rw [show (2 * x + 0) / 2 = x by omega]; exact hx)
  have r1 : rtOf n q (2 * x + 1) = false := rtOf_false (by rw [show (2 * x + 1) / 2 = x by omega]; exact hx)
  obtain ⟨g1, A1, e1, s1, a1, b1, c1, d1, f1, i1, j1, k1⟩ := hookMissing_ok s hp (by omega : 0 < 2) r0
  have hp1 : holder (rtOf n) A1 (q + 1) x = some p := by
    rw [← hp]; exact holder_congr rfl rfl (b1 _ _ (by omega)) (b1 _ _ (by omega))
  obtain ⟨g2, A2, e2, s2, a2, b2, c2, d2, f2, i2, j2, k2⟩ := hookMissing_ok s1 hp1 (by omega : 1 < 2) r1
  have hp2 : holder (rtOf n) A2 (q + 1) x = some p := by
    rw [← hp1]; exact holder_congr rfl rfl (b2 _ _ (by omega)) (b2 _ _ (by omega))
  obtain ⟨z, hg⟩ := s2.hget hp2
  have k1' := k1
  have k2' := k2
  have hpl : p < heap.length := by obtain ⟨z, hg⟩ := s.hget hp; exact lt_of_get hg
  have k0 := s2.kids q (2 * x) r0
  have k1 := s2.kids q (2 * x + 1) r1
  rw [show (2 * x) / 2 = x by omega, show (2 * x) % 2 = 0 by omega, hp2, nz_some hg] at k0
  rw [show (2 * x + 1) / 2 = x by omega, show (2 * x + 1) % 2 = 1 by omega, hp2, nz_some hg] at k1
  have k0n : z.n0 = A2 q (2 * x) := k0.symm
  have k1n : z.n1 = A2 q (2 * x + 1) := k1.symm
  have z0 : A1 q (2 * x + 1) = A q (2 * x + 1) := b1 _ _ (by omega)
  have z1 : A2 q (2 * x) = A1 q (2 * x) := b2 _ _ (by omega)
  rw [z0] at e2 c2 d2
  simp only [Nat.add_zero] at e1 a1 b1 c1 d1
  have split2 : ∀ y, y / 2 = x → y = 2 * x ∨ y = 2 * x + 1 := by intro y h; omega
  refine ⟨g2, A2, ?_, s2, by rw [z1]; exact a1, a2, ?_, ?_, ?_, by omega, fun t ht => by rw [i2 t (by omega), i1 t ht],
    fun t ht hne => by rw [j2 t (by omega) hne, j1 t ht hne], fun t ht => ?_⟩
  · unfold initChildren
    rw [hv, e1]; simp only [ok_bind]
    rw [e2]; simp only [ok_bind]
    rw [deref_ok hg]; simp only [ok_bind]
    rw [hpos, leftChild_posOf (by omega) (by omega) (by
      refine lt_of_lt_of_le hi (Nat.pow_le_pow_right (by omega) (by omega)))]; simp only [ok_bind]
    rw [child_posOf (by omega) (by omega) (by
      refine lt_of_lt_of_le hi (Nat.pow_le_pow_right (by omega) (by omega))) (by omega)]; simp only [ok_bind, pure_ok]
    rw [k0n, k1n]
    simp only [Option.not_isNone]
    rfl
  · intro r y h
    rw [b2 _ _ (by rintro ⟨rfl, rfl⟩; exact h ⟨rfl, by omega⟩), b1 _ _ (by rintro ⟨rfl, rfl⟩; exact h ⟨rfl, by omega⟩)]
  · intro r y t h
    by_cases hh : r = q ∧ y / 2 = x
    · obtain ⟨rfl, hy⟩ := hh
      rcases split2 y hy with rfl | rfl
      · rw [z1]; exact c1 t h
      · exact c2 t h
    · rw [b2 _ _ (by rintro ⟨rfl, rfl⟩; exact hh ⟨rfl, by omega⟩), b1 _ _ (by rintro ⟨rfl, rfl⟩; exact hh ⟨rfl, by omega⟩)]
      exact h
  · intro r y t h h0
    by_cases hh : r = q ∧ y / 2 = x
    · obtain ⟨rfl, hy⟩ := hh
      rcases split2 y hy with rfl | rfl
      · rw [z1] at h; exact ⟨d1 t h h0, rfl, hy⟩
      · exact ⟨by have := d2 t h h0; omega, rfl, hy⟩
    · rw [b2 _ _ (by rintro ⟨rfl, rfl⟩; exact hh ⟨rfl, by omega⟩), b1 _ _ (by rintro ⟨rfl, rfl⟩; exact hh ⟨rfl, by omega⟩)] at h
      rw [h0] at h; simp at h
  · rcases Nat.lt_or_ge t g1.length with h | h
    · have := hpl
      rw [j2 t h (by omega)]; exact k1' t ht
    · exact k2' t h

/-! ## The invariant -/

/-- The bits a recovery entry cuts. -/
def covers : Chop → ℕ → Prop
  | .left, b => b = 0
  | .right, b => b = 1
  | .both, _ => True

theorem recoveryEntry_iff {id : ℕ} {rl rr : Bool} {b : ℕ} (hb : b < 2) {Q : ℕ → Prop} :
    (∃ e ∈ recoveryEntry id rl rr, Q e.1 ∧ covers e.2 b) ↔ Q id ∧ ((b = 0 ∧ rl = true) ∨ (b = 1 ∧ rr = true)) := by
  have hb' : b = 0 ∨ b = 1 := by omega
  cases rl <;> cases rr <;> simp [recoveryEntry, covers, hb']

theorem recoveryEntry_id {id : ℕ} {rl rr : Bool} {e : ℕ × Chop} (h : e ∈ recoveryEntry id rl rr) : e.1 = id := by
  cases rl <;> cases rr <;> simp [recoveryEntry] at h <;> rw [h]

/-- The data of a call to `Verify` that do not change: `hon` stands for a proof that fits, `prf` are
the hashes of the proof in reverse order. -/
structure Ctx (H : Type) where
  prf : List H
  n : ℕ
  D : List ℕ
  A0 : Addr
  heap0 : List (INode H)
  c : ℕ → ℕ → H
  hon : Prop
  hs : List H

structure Ctx.Ok (K : Ctx H) : Prop where
  sane : Sane K.n K.D
  shape : Shape K.heap0 (rtOf K.n) K.A0
  hashed : Hashed K.heap0 K.A0 K.c
  out : ∀ r y, ¬ y < K.n / 2 ^ r → K.A0 r y = none
  tree : ∀ r x, K.c (r + 1) x = HashOps.ph (K.c r (2 * x)) (K.c r (2 * x + 1))

/-- Marked as target so far. -/
def tau (n : ℕ) (D : List ℕ) (k : ℕ) (dn : List ℕ) (r x : ℕ) : Bool :=
  decide ((k < r ∧ x ∈ Cn n D r) ∨ (r = k ∧ x ∈ dn))

/-- State of the construction: the rows above `k` are done and in row `k` the computed nodes `dn`;
`cs` are the coordinates of the node objects. -/
structure CI (K : Ctx H) (c : CPT H) (k : ℕ) (dn : List ℕ) (cs : List (ℕ × ℕ)) (A1 : Addr) : Prop where
  shape : Shape c.heap (rtOf K.n) A1
  ext : ∀ r x p, K.A0 r x = some p → A1 r x = some p
  new : ∀ r x p, A1 r x = some p → K.A0 r x = none → K.heap0.length ≤ p ∧ (r, x) ∈ cs
  old : ∀ p, p < K.heap0.length → hz c.heap p = hz K.heap0 p
  len : K.heap0.length ≤ c.heap.length
  arena : c.arena = cs.map (vn K.n K.A0 A1 cs (tau K.n K.D k dn) (fun _ _ => false))
  nodup : cs.Nodup
  mem : ∀ r x, (r, x) ∈ cs ↔ (k ≤ r ∧ x ∈ Vn K.n K.D r) ∨ (r + 1 = k ∧ x / 2 ∈ dn)
  pres : ∀ r x, (r, x) ∈ cs → (A1 r x).isSome
  dnc : ∀ x ∈ dn, x ∈ Cn K.n K.D k
  rc : ∀ r x, (K.A0 r x = none ∧ (A1 r x).isSome = true) ↔
    ∃ e ∈ c.recovery, cs[e.1]? = some (r + 1, x / 2) ∧ covers e.2 (x % 2)
  recs : ∀ e ∈ c.recovery, ∃ r x, cs[e.1]? = some (r + 1, x)
  roots : RootsAt c.roots K.A0 (rootCoords K.n)
  flg : ∀ x p, K.A0 0 x = some p → nz c.heap (some p) 0 = nz K.heap0 (some p) 0
  fnew : ∀ x p, A1 0 x = some p → K.A0 0 x = none → nz c.heap (some p) 0 = none

/-- The proof nodes still to visit. -/
def pend (K : Ctx H) (v : ℕ → ℕ → H) (k : ℕ) (todo : List ℕ) : List (Bool × H) :=
  planRow K.A0 v k (todo.filter (fun x => !decide (x ∈ Cn K.n K.D k))) ++ planRev K.A0 v (Pn K.n K.D) k

theorem pend_comp {K : Ctx H} {v : ℕ → ℕ → H} {k x : ℕ} {todo : List ℕ} (hx : x ∈ Cn K.n K.D k) :
    pend K v k (x :: todo) = pend K v k todo := by
  unfold pend; rw [List.filter_cons_of_neg (by simpa using hx)]

theorem pend_proof {K : Ctx H} {v : ℕ → ℕ → H} {k x : ℕ} {todo : List ℕ} (hx : x ∉ Cn K.n K.D k) :
    pend K v k (x :: todo) = ((K.A0 k x).isSome, v k x) :: pend K v k todo := by
  unfold pend; rw [List.filter_cons_of_pos (by simpa using hx)]; rfl

/-- What the three iterators still have to visit: `todo` of row `k` and the rows below. -/
structure Prog (K : Ctx H) (c : CPT H) (A1 : Addr) (k : ℕ) (todo : List ℕ) : Prop where
  comp : c.compPos = (todo.filter (fun x => decide (x ∈ Cn K.n K.D k))).map (posOf (St.numRows K.n) k) ++
    posRev (St.numRows K.n) (Cn K.n K.D) k
  proof : c.proofPos = (todo.filter (fun x => !decide (x ∈ Cn K.n K.D k))).map (posOf (St.numRows K.n) k) ++
    posRev (St.numRows K.n) (Pn K.n K.D) k
  hash : K.hon → Reads HashOps.zero (pend K K.c k todo) c.hashes
  good : K.hon → ∀ r x p, x ∈ Pn K.n K.D r → (k < r ∨ (r = k ∧ x ∉ todo)) → A1 r x = some p → hz c.heap p = some (K.c r x)
  back : ∀ v : ℕ → ℕ → H, (∀ r x p, x ∈ Pn K.n K.D r → (k < r ∨ (r = k ∧ x ∉ todo)) → A1 r x = some p → hz c.heap p = some (v r x)) →
    Reads HashOps.zero (pend K v k todo) c.hashes → Reads HashOps.zero (planRev K.A0 v (Pn K.n K.D) (St.numRows K.n + 1)) K.prf

/-- Result of a step: going on, failing, or undefined behaviour. -/
def Out {α : Type} (P F : α → Prop) (Z : Prop) : Res (Step α) → Prop
  | .ok (.cont a) => P a
  | .ok (.fail a) => F a
  | .error e => e = .ub ∧ Z

/-- The only case of undefined behaviour: a cached hash is the null hash and the proof is not honest. -/
def Zc (K : Ctx H) : Prop := ¬ K.hon ∧ ∃ r x p, K.A0 r x = some p ∧ K.c r x = HashOps.zero

/-- Failed in the construction. -/
def Fc (K : Ctx H) (a : CPT H × List ℕ) : Prop := ¬ K.hon ∧ ∃ k dn cs A1, CI K a.1 k dn cs A1

theorem vn_congr {n : ℕ} {A0 A1 A2 : Addr} {cs cs' : List (ℕ × ℕ)} {τ τ' ν ν' : ℕ → ℕ → Bool} {e : ℕ × ℕ}
    (h1 : A2 e.1 e.2 = A1 e.1 e.2) (h2 : A2 e.1 (e.2 ^^^ 1) = A1 e.1 (e.2 ^^^ 1))
    (h3 : rtOf n e.1 e.2 = false → cs'.idxOf (e.1 + 1, e.2 / 2) = cs.idxOf (e.1 + 1, e.2 / 2))
    (h4 : τ' e.1 e.2 = τ e.1 e.2) (h5 : ν' e.1 e.2 = ν e.1 e.2) :
    vn n A0 A2 cs' τ' ν' e = vn n A0 A1 cs τ ν e := by
  unfold vn
  rw [h1, h4, h5, holder_congr (rt := rtOf n) (rt' := rtOf n) rfl rfl h1 h2]
  cases hr : rtOf n e.1 e.2 with
  | true => rfl
  | false => rw [h3 hr]

theorem map_set_idx {β : Type} {cs : List (ℕ × ℕ)} (hnd : cs.Nodup) {e : ℕ × ℕ} (he : e ∈ cs) {g g' : ℕ × ℕ → β}
    (h : ∀ y ∈ cs, y ≠ e → g' y = g y) : (cs.map g).set (cs.idxOf e) (g' e) = cs.map g' := by
  apply List.ext_getElem?
  intro i
  rw [List.getElem?_set, List.getElem?_map, List.getElem?_map, List.length_map]
  have hl := List.idxOf_lt_length_of_mem he
  by_cases hi : cs.idxOf e = i
  · subst hi
    rw [if_pos rfl, if_pos hl, List.getElem?_idxOf he]; rfl
  · rw [if_neg hi]
    cases hc : cs[i]? with
    | none => rfl
    | some y =>
      have hy : y ∈ cs := List.mem_of_getElem? hc
      have hne : y ≠ e := by
        rintro rfl
        apply hi
        have h1 := List.getElem?_idxOf he
        exact (List.getElem?_inj hl hnd).1 (by rw [h1, hc])
      simp only [Option.map_some]
      rw [h y hy hne]

namespace CI
variable {K : Ctx H} {c : CPT H} {k : ℕ} {dn : List ℕ} {cs : List (ℕ × ℕ)} {A1 : Addr}

theorem inj (I : CI K c k dn cs A1) {r x r' x' p : ℕ} (h : A1 r x = some p) (h' : A1 r' x' = some p) : r = r' ∧ x = x' :=
  I.shape.inj _ _ _ _ _ h h'

theorem inn (I : CI K c k dn cs A1) (hK : K.Ok) {r x : ℕ} (h : (r, x) ∈ cs) : x < K.n / 2 ^ r := by
  rcases (I.mem r x).1 h with h | ⟨h1, h2⟩
  · exact Vn_in hK.sane h.2
  · subst h1
    have := (Cn_ok hK.sane _).2 _ (I.dnc _ h2)
    rw [div_succ_row] at this; omega

theorem sib (I : CI K c k dn cs A1) (hK : K.Ok) {r x : ℕ} (h : (r, x) ∈ cs) (hr : rtOf K.n r x = false) : (r, x ^^^ 1) ∈ cs := by
  rw [I.mem]
  rcases (I.mem r x).1 h with h | ⟨h1, h2⟩
  · exact .inl ⟨h.1, Vn_sib hK.sane h.2 hr⟩
  · right; rw [sb_div]; exact ⟨h1, h2⟩

theorem parent (I : CI K c k dn cs A1) (hK : K.Ok) {r x : ℕ} (h : (r, x) ∈ cs) (hr : rtOf K.n r x = false) :
    (r + 1, x / 2) ∈ cs := by
  rw [I.mem]
  rcases (I.mem r x).1 h with h | ⟨h1, h2⟩
  · exact .inl ⟨by omega, Cn_sub hK.sane (Vn_parent hK.sane h.2 hr)⟩
  · exact .inl ⟨by omega, Cn_sub hK.sane (by rw [h1]; exact I.dnc _ h2)⟩

theorem sibRt (I : CI K c k dn cs A1) (hK : K.Ok) {r x : ℕ} (h : (r, x) ∈ cs) (hr : rtOf K.n r x = false) :
    rtOf K.n r (x ^^^ 1) = false := by
  have h1 := I.inn hK h
  apply rtOf_false
  rw [sb_div]
  by_contra hc
  rw [(rtOf_iff h1).2 hc] at hr
  simp at hr

/-- Every node object has a holder. -/
theorem hold (I : CI K c k dn cs A1) (hK : K.Ok) {r x : ℕ} (h : (r, x) ∈ cs) : ∃ p, holder (rtOf K.n) A1 r x = some p := by
  cases hr : rtOf K.n r x with
  | true => rw [holder_root hr]; exact Option.isSome_iff_exists.1 (I.pres _ _ h)
  | false =>
    rw [holder_sib hr (I.sibRt hK h hr)]
    exact Option.isSome_iff_exists.1 (I.pres _ _ (I.sib hK h hr))

theorem node (I : CI K c k dn cs A1) {e : ℕ × ℕ} (h : e ∈ cs) :
    c.arena[cs.idxOf e]? = some (vn K.n K.A0 A1 cs (tau K.n K.D k dn) (fun _ _ => false) e) := by
  rw [I.arena, List.getElem?_map, List.getElem?_idxOf h]; rfl

/-- The invariant does not speak about the iterators. -/
theorem congr {c' : CPT H} (I : CI K c k dn cs A1) (h1 : c'.heap = c.heap) (h2 : c'.arena = c.arena)
    (h3 : c'.recovery = c.recovery) (h4 : c'.roots = c.roots) : CI K c' k dn cs A1 where
  shape := by rw [h1]; exact I.shape
  ext := I.ext
  new := I.new
  old := by rw [h1]; exact I.old
  len := by rw [h1]; exact I.len
  arena := by rw [h2]; exact I.arena
  nodup := I.nodup
  mem := I.mem
  pres := I.pres
  dnc := I.dnc
  rc := by rw [h3]; exact I.rc
  recs := by rw [h3]; exact I.recs
  roots := by rw [h4]; exact I.roots
  flg := by rw [h1]; exact I.flg
  fnew := by rw [h1]; exact I.fnew

/-- Overwriting the hash of a node that was not cached. -/
theorem setHash {c' : CPT H} (I : CI K c k dn cs A1) {r x p : ℕ} {z : INode H} (hp : A1 r x = some p) (h0 : K.A0 r x = none)
    (hg : c.heap[p]? = some z) (h : H) (h1 : c'.heap = c.heap.set p { z with hash := h }) (h2 : c'.arena = c.arena)
    (h3 : c'.recovery = c.recovery) (h4 : c'.roots = c.roots) : CI K c' k dn cs A1 where
  shape := by rw [h1]; exact I.shape.setHash hg h
  ext := I.ext
  new := I.new
  old := by
    intro t ht
    have := (I.new _ _ _ hp h0).1
    rw [h1, hz_set (lt_of_get hg), if_neg (by omega), I.old t ht]
  len := by rw [h1, List.length_set]; exact I.len
  arena := by rw [h2]; exact I.arena
  nodup := I.nodup
  mem := I.mem
  pres := I.pres
  dnc := I.dnc
  rc := by rw [h3]; exact I.rc
  recs := by rw [h3]; exact I.recs
  roots := by rw [h4]; exact I.roots
  flg := by
    intro x' p' h'
    have := (I.new _ _ _ hp h0).1
    rw [h1, nz_set (lt_of_get hg), if_neg (by
      rintro rfl
      obtain ⟨rfl, rfl⟩ := I.shape.inj _ _ _ _ _ (I.ext _ _ _ h') hp
      rw [h0] at h'; simp at h')]
    exact I.flg x' p' h'
  fnew := by
    intro x' p' h' h0'
    rw [h1, nz_set (lt_of_get hg)]
    have e := I.fnew x' p' h' h0'
    split
    · rename_i e'
      subst e'
      rw [nz_some hg] at e
      exact e
    · exact e

/-- A computed leaf. -/
theorem leaf {c' : CPT H} (I : CI K c 0 dn cs A1) {x : ℕ} (hx : x ∈ Cn K.n K.D 0) (hm : (0, x) ∈ cs) {v : VNode}
    (hv : v = vn K.n K.A0 A1 cs (tau K.n K.D 0 (x :: dn)) (fun _ _ => false) (0, x)) (h1 : c'.heap = c.heap)
    (h2 : c'.arena = c.arena.set (cs.idxOf (0, x)) v)
    (h3 : c'.recovery = c.recovery) (h4 : c'.roots = c.roots) : CI K c' 0 (x :: dn) cs A1 where
  shape := by rw [h1]; exact I.shape
  ext := I.ext
  new := I.new
  old := by rw [h1]; exact I.old
  len := by rw [h1]; exact I.len
  arena := by
    rw [h2, I.arena, hv]
    refine map_set_idx I.nodup hm ?_
    rintro ⟨r, y⟩ _ hne
    refine vn_congr rfl rfl (fun _ => rfl) ?_ rfl
    unfold tau
    rw [decide_eq_decide]
    simp only [List.mem_cons]
    constructor
    · rintro (h | ⟨h, h' | h'⟩)
      · exact .inl h
      · exact absurd (by rw [h, h']) hne
      · exact .inr ⟨h, h'⟩
    · rintro (h | ⟨h, h'⟩)
      · exact .inl h
      · exact .inr ⟨h, .inr h'⟩
  nodup := I.nodup
  mem := by
    intro r y
    rw [I.mem]
    simp
  pres := I.pres
  dnc := by
    intro y hy
    rcases List.mem_cons.1 hy with rfl | hy
    · exact hx
    · exact I.dnc y hy
  rc := by rw [h3]; exact I.rc
  recs := by rw [h3]; exact I.recs
  roots := by rw [h4]; exact I.roots
  flg := by rw [h1]; exact I.flg
  fnew := by rw [h1]; exact I.fnew

end CI

/-- A computed node above the leaves: its children join. -/
theorem CI.grow {K : Ctx H} {c c' : CPT H} {q x : ℕ} {dn : List ℕ} {cs : List (ℕ × ℕ)} {A1 A2 : Addr} {v l r : VNode}
    (hK : K.Ok) (I : CI K c (q + 1) dn cs A1) (hx : x ∈ Cn K.n K.D (q + 1)) (hd : x ∉ dn)
    (hv : v = vn K.n K.A0 A1 cs (tau K.n K.D (q + 1) (x :: dn)) (fun _ _ => false) (q + 1, x))
    (hl : l = kidNode (A2 q (2 * x)) (A2 q (2 * x + 1)) (cs.idxOf (q + 1, x)) (posOf (St.numRows K.n) q (2 * x))
      (A1 q (2 * x)).isSome (A1 q (2 * x + 1)).isSome)
    (hr : r = kidNode (A2 q (2 * x + 1)) (A2 q (2 * x)) (cs.idxOf (q + 1, x)) (posOf (St.numRows K.n) q (2 * x + 1))
      (A1 q (2 * x + 1)).isSome (A1 q (2 * x)).isSome)
    (s2 : Shape c'.heap (rtOf K.n) A2) (p0 : (A2 q (2 * x)).isSome) (p1 : (A2 q (2 * x + 1)).isSome)
    (same : ∀ r y, ¬ (r = q ∧ y / 2 = x) → A2 r y = A1 r y) (ext : ∀ r y t, A1 r y = some t → A2 r y = some t)
    (new : ∀ r y t, A2 r y = some t → A1 r y = none → c.heap.length ≤ t ∧ r = q ∧ y / 2 = x)
    (len : c.heap.length ≤ c'.heap.length) (hzs : ∀ t, t < c.heap.length → hz c'.heap t = hz c.heap t)
    (hfl : ∀ t, t < c.heap.length → holder (rtOf K.n) A1 (q + 1) x ≠ some t → nz c'.heap (some t) 0 = nz c.heap (some t) 0)
    (hfn : ∀ t, c.heap.length ≤ t → nz c'.heap (some t) 0 = none)
    (h2 : c'.arena = c.arena.set (cs.idxOf (q + 1, x)) v ++ [l, r])
    (h3 : c'.recovery = c.recovery ++ recoveryEntry (cs.idxOf (q + 1, x)) (A1 q (2 * x)).isNone (A1 q (2 * x + 1)).isNone)
    (h4 : c'.roots = c.roots) : CI K c' (q + 1) (x :: dn) (cs ++ [(q, 2 * x), (q, 2 * x + 1)]) A2 := by
  have hin := (Cn_ok hK.sane _).2 x hx
  have hm : (q + 1, x) ∈ cs := (I.mem _ _).2 (.inl ⟨le_rfl, Cn_sub hK.sane hx⟩)
  have hnc : ∀ y, y / 2 = x → (q, y) ∉ cs := by
    intro y hy hc
    rcases (I.mem _ _).1 hc with h | h
    · omega
    · rw [hy] at h; exact hd h.2
  have r0 : ∀ y, y / 2 = x → rtOf K.n q y = false := fun y hy => rtOf_false (by rw [hy]; exact hin)
  have a01 : ∀ y, y / 2 = x → A1 q y = K.A0 q y := by
    intro y hy
    cases h0 : K.A0 q y with
    | some p => exact I.ext _ _ _ h0
    | none =>
      cases h1 : A1 q y with
      | none => rfl
      | some p => exact absurd (I.new _ _ _ h1 h0).2 (hnc y hy)
  have split2 : ∀ y, y / 2 = x ↔ y = 2 * x ∨ y = 2 * x + 1 := by intro y; omega
  have hidx : (cs ++ [(q, 2 * x), (q, 2 * x + 1)]).idxOf (q + 1, x) = cs.idxOf (q + 1, x) := List.idxOf_append_of_mem hm
  have hgid : (cs ++ [(q, 2 * x), (q, 2 * x + 1)])[cs.idxOf (q + 1, x)]? = some (q + 1, x) := by
    rw [List.getElem?_append_left (List.idxOf_lt_length_of_mem hm), List.getElem?_idxOf hm]
  have x0 : 2 * x ^^^ 1 = 2 * x + 1 := by rw [xor_one_cases]; split <;> omega
  have x1 : (2 * x + 1) ^^^ 1 = 2 * x := by rw [xor_one_cases]; split <;> omega
  have q0 := r0 (2 * x) (by omega)
  have q1 := r0 (2 * x + 1) (by omega)
  have tf : ∀ y, tau K.n K.D (q + 1) (x :: dn) q y = false := by
    intro y; unfold tau
    rw [decide_eq_false_iff_not]
    rintro (h | h) <;> omega
  refine ⟨s2, ?_, ?_, ?_, by have := I.len; omega, ?_, ?_, ?_, ?_, ?_, ?_, ?_, by rw [h4]; exact I.roots, by
    intro x' p' h'
    have h1 := I.ext _ _ _ h'
    rw [hfl p' (I.shape.bnd _ _ _ h1).2 (by
      intro hh
      obtain ⟨j, hj⟩ := holder_addr hh
      have := (I.shape.inj _ _ _ _ _ h1 hj).1
      omega)]
    exact I.flg x' p' h', by
    intro x' p' h' h0'
    cases h1 : A1 0 x' with
    | none => exact hfn _ (new _ _ _ h' h1).1
    | some p'' =>
      have := ext _ _ _ h1
      rw [h'] at this
      simp only [Option.some.injEq] at this
      subst this
      rw [hfl p' (I.shape.bnd _ _ _ h1).2 (by
        intro hh
        obtain ⟨j, hj⟩ := holder_addr hh
        have := (I.shape.inj _ _ _ _ _ h1 hj).1
        omega)]
      exact I.fnew x' p' h1 h0'⟩
  · intro r y p h; exact ext _ _ _ (I.ext _ _ _ h)
  · intro r y p h h0
    cases h1 : A1 r y with
    | none =>
      obtain ⟨e1, rfl, e3⟩ := new _ _ _ h h1
      refine ⟨by have := I.len; omega, ?_⟩
      rw [List.mem_append]; right
      rcases (split2 y).1 e3 with rfl | rfl <;> simp
    | some p' =>
      have := ext _ _ _ h1
      rw [h] at this
      simp only [Option.some.injEq] at this
      subst this
      obtain ⟨e1, e2⟩ := I.new _ _ _ h1 h0
      exact ⟨e1, List.mem_append_left _ e2⟩
  · intro p hp
    rw [hzs p (by have := I.len; omega), I.old p hp]
  · rw [h2, List.map_append]
    congr 1
    · have hv' : v = vn K.n K.A0 A2 (cs ++ [(q, 2 * x), (q, 2 * x + 1)]) (tau K.n K.D (q + 1) (x :: dn)) (fun _ _ => false) (q + 1, x) := by
        rw [hv]
        symm
        refine vn_congr (same _ _ (by omega)) (same _ _ (by omega)) ?_ rfl rfl
        intro hrt
        exact List.idxOf_append_of_mem (I.parent hK hm hrt)
      rw [hv', I.arena]
      refine map_set_idx I.nodup hm ?_
      rintro ⟨t, y⟩ hy hne
      have hn' : ¬ (t = q ∧ y / 2 = x) := by
        rintro ⟨rfl, h⟩; exact hnc y h hy
      refine vn_congr (same _ _ hn') (same _ _ (by simp only [sb_div]; exact hn')) ?_ ?_ rfl
      · intro hrt
        exact List.idxOf_append_of_mem (I.parent hK hy hrt)
      · unfold tau
        rw [decide_eq_decide]
        simp only [List.mem_cons]
        constructor
        · rintro (h | ⟨h, h' | h'⟩)
          · exact .inl h
          · exact absurd (by rw [h, h']) hne
          · exact .inr ⟨h, h'⟩
        · rintro (h | ⟨h, h'⟩)
          · exact .inl h
          · exact .inr ⟨h, .inr h'⟩
    · rw [hl, hr]
      simp only [List.map_cons, List.map_nil]
      unfold vn kidNode
      simp only [holder_sib q0 (by rw [x0]; exact q1), holder_sib q1 (by rw [x1]; exact q0), q0, q1, x0, x1, hidx, tf,
        show 2 * x / 2 = x by omega, show (2 * x + 1) / 2 = x by omega, a01 (2 * x) (by omega), a01 (2 * x + 1) (by omega),
        Bool.false_or, Bool.false_eq_true, if_false]
  · rw [List.nodup_append]
    refine ⟨I.nodup, by simp, ?_⟩
    rintro ⟨t, y⟩ ha b hb rfl
    simp only [List.mem_cons, List.not_mem_nil, or_false, Prod.mk.injEq] at hb
    rcases hb with ⟨rfl, rfl⟩ | ⟨rfl, rfl⟩
    · exact hnc _ (by omega) ha
    · exact hnc _ (by omega) ha
  · intro t y
    rw [List.mem_append, I.mem]
    simp only [List.mem_cons, List.not_mem_nil, or_false, Prod.mk.injEq]
    constructor
    · rintro ((h | h) | h)
      · exact .inl h
      · exact .inr ⟨h.1, .inr h.2⟩
      · rcases h with ⟨rfl, rfl⟩ | ⟨rfl, rfl⟩
        · exact .inr ⟨rfl, .inl (by omega)⟩
        · exact .inr ⟨rfl, .inl (by omega)⟩
    · rintro (h | ⟨h, h' | h'⟩)
      · exact .inl (.inl h)
      · right
        have : t = q := by omega
        subst this
        rcases (split2 y).1 h' with rfl | rfl <;> simp
      · exact .inl (.inr ⟨h, h'⟩)
  · intro t y h
    rcases List.mem_append.1 h with h | h
    · obtain ⟨p, hp⟩ := Option.isSome_iff_exists.1 (I.pres _ _ h)
      rw [ext _ _ _ hp]; rfl
    · simp only [List.mem_cons, List.not_mem_nil, or_false, Prod.mk.injEq] at h
      rcases h with ⟨rfl, rfl⟩ | ⟨rfl, rfl⟩
      · exact p0
      · exact p1
  · intro y hy
    rcases List.mem_cons.1 hy with rfl | hy
    · exact hx
    · exact I.dnc y hy
  · intro t y
    have olds : (∃ e ∈ c.recovery, (cs ++ [(q, 2 * x), (q, 2 * x + 1)])[e.1]? = some (t + 1, y / 2) ∧ covers e.2 (y % 2)) ↔
        ∃ e ∈ c.recovery, cs[e.1]? = some (t + 1, y / 2) ∧ covers e.2 (y % 2) := by
      constructor <;> rintro ⟨e, he, h1, h2⟩ <;> refine ⟨e, he, ?_, h2⟩ <;> obtain ⟨a, b, hab⟩ := I.recs e he
      · rw [List.getElem?_append_left (lt_of_get hab)] at h1; exact h1
      · rw [List.getElem?_append_left (lt_of_get hab)]; exact h1
    have news := recoveryEntry_iff (id := cs.idxOf (q + 1, x)) (rl := (A1 q (2 * x)).isNone) (rr := (A1 q (2 * x + 1)).isNone)
      (Nat.mod_lt y (by omega : 2 > 0)) (Q := fun i => (cs ++ [(q, 2 * x), (q, 2 * x + 1)])[i]? = some (t + 1, y / 2))
    rw [h3]
    have hor : (∃ e ∈ c.recovery ++ recoveryEntry (cs.idxOf (q + 1, x)) (A1 q (2 * x)).isNone (A1 q (2 * x + 1)).isNone,
        (cs ++ [(q, 2 * x), (q, 2 * x + 1)])[e.1]? = some (t + 1, y / 2) ∧ covers e.2 (y % 2)) ↔
        (K.A0 t y = none ∧ (A1 t y).isSome = true) ∨ ((cs ++ [(q, 2 * x), (q, 2 * x + 1)])[cs.idxOf (q + 1, x)]? = some (t + 1, y / 2) ∧
          (y % 2 = 0 ∧ (A1 q (2 * x)).isNone = true ∨ y % 2 = 1 ∧ (A1 q (2 * x + 1)).isNone = true)) := by
      rw [I.rc, ← olds, ← news]
      constructor
      · rintro ⟨e, he, h⟩
        rcases List.mem_append.1 he with he | he
        · exact .inl ⟨e, he, h⟩
        · exact .inr ⟨e, he, h⟩
      · rintro (⟨e, he, h⟩ | ⟨e, he, h⟩)
        · exact ⟨e, List.mem_append_left _ he, h⟩
        · exact ⟨e, List.mem_append_right _ he, h⟩
    rw [hor, hgid]
    by_cases hh : t = q ∧ y / 2 = x
    · obtain ⟨rfl, hy⟩ := hh
      rw [a01 y hy, hy]
      have e0 := a01 (2 * x) (by omega)
      have e1 := a01 (2 * x + 1) (by omega)
      rw [e0, e1]
      rcases (split2 y).1 hy with rfl | rfl
      · cases hA : K.A0 t (2 * x) <;> simp [p0]
      · cases hA : K.A0 t (2 * x + 1) <;> simp [p1, Nat.add_mod]
    · rw [same _ _ hh]
      constructor
      · exact fun h => .inl h
      · rintro (h | h)
        · exact h
        · exfalso
          simp only [Option.some.injEq, Prod.mk.injEq] at h
          exact hh ⟨by omega, h.1.2.symm⟩
  · intro e he
    rw [h3] at he
    rcases List.mem_append.1 he with he | he
    · obtain ⟨a, b, hab⟩ := I.recs e he
      exact ⟨a, b, by rw [List.getElem?_append_left (lt_of_get hab)]; exact hab⟩
    · rw [recoveryEntry_id he]
      exact ⟨q, x, hgid⟩

/-! ## One node -/

theorem pos_ne {n r y k x : ℕ} (hn : n ≤ 2 ^ 62) (hy : y < n / 2 ^ r) (hx : x < n / 2 ^ k) (h : ¬ (r = k ∧ y = x)) :
    posOf (St.numRows n) r y ≠ posOf (St.numRows n) k x := fun he =>
  h (posOf_inj (row_le hn hy).2 (row_le hn hx).2 he)

theorem Pn_in {n : ℕ} {D : List ℕ} (hD : Sane n D) {k x : ℕ} (h : x ∈ Pn n D k) : x < n / 2 ^ k :=
  Vn_in hD ((Vn_cases hD).2 (.inr h))

/-- A position is a leaf position iff the row is the bottom row. -/
theorem pos_lt_iff {n k x : ℕ} (hn : n ≤ 2 ^ 62) (hx : x < n / 2 ^ k) : posOf (St.numRows n) k x < n ↔ k = 0 := by
  constructor
  · intro h
    by_contra hk
    have hnR : n ≤ 2 ^ St.numRows n := le_two_pow_numRows (by omega)
    have h1 : posOf (St.numRows n) 0 (2 ^ St.numRows n - 1) < posOf (St.numRows n) k x :=
      posOf_lt_of_row_lt (by have := Nat.two_pow_pos (St.numRows n); rw [Nat.sub_zero]; omega) (by omega)
    rw [posOf_zero] at h1
    omega
  · rintro rfl
    rw [posOf_zero]; simpa using hx

section
variable {K : Ctx H} {c : CPT H} {k x : ℕ} {todo dn : List ℕ} {cs : List (ℕ × ℕ)} {A1 : Addr}

theorem Prog.comp_head (hK : K.Ok) (P : Prog K c A1 k (x :: todo)) (hx : x ∈ Cn K.n K.D k) (htd : ∀ y ∈ todo, y ∈ Vn K.n K.D k) :
    c.compPos = posOf (St.numRows K.n) k x :: c.compPos.tail ∧
    (c.proofPos.head? == some (posOf (St.numRows K.n) k x)) = false := by
  constructor
  · rw [P.comp, List.filter_cons_of_pos (by simpa using hx)]; rfl
  · apply head_ne
    intro y hy
    rw [P.proof, List.filter_cons_of_neg (by simpa using hx), List.mem_append] at hy
    have hin := (Cn_ok hK.sane k).2 x hx
    rcases hy with hy | hy
    · obtain ⟨z, hz', rfl⟩ := List.mem_map.1 hy
      obtain ⟨h1, h2⟩ := List.mem_filter.1 hz'
      refine pos_ne hK.sane.n62 (Vn_in hK.sane (htd z h1)) hin ?_
      rintro ⟨-, rfl⟩
      simp [hx] at h2
    · obtain ⟨q, z, h1, h2, rfl⟩ := mem_posRev hy
      exact pos_ne hK.sane.n62 (Pn_in hK.sane h2) hin (by omega)

theorem Prog.proof_head (hK : K.Ok) (P : Prog K c A1 k (x :: todo)) (hx : x ∉ Cn K.n K.D k) (hv : x ∈ Vn K.n K.D k) :
    c.proofPos = posOf (St.numRows K.n) k x :: c.proofPos.tail ∧
    (c.compPos.head? == some (posOf (St.numRows K.n) k x)) = false := by
  constructor
  · rw [P.proof, List.filter_cons_of_pos (by simpa using hx)]; rfl
  · apply head_ne
    intro y hy
    rw [P.comp, List.filter_cons_of_neg (by simpa using hx), List.mem_append] at hy
    have hin := Vn_in hK.sane hv
    rcases hy with hy | hy
    · obtain ⟨z, hz', rfl⟩ := List.mem_map.1 hy
      obtain ⟨h1, h2⟩ := List.mem_filter.1 hz'
      simp only [decide_eq_true_eq] at h2
      refine pos_ne hK.sane.n62 ((Cn_ok hK.sane k).2 z h2) hin ?_
      rintro ⟨-, rfl⟩
      exact hx h2
    · obtain ⟨q, z, h1, h2, rfl⟩ := mem_posRev hy
      exact pos_ne hK.sane.n62 ((Cn_ok hK.sane q).2 z h2) hin (by omega)

/-- The iterators after a computed node. -/
theorem Prog.comp_step {c' : CPT H} {A2 : Addr} (hK : K.Ok) (P : Prog K c A1 k (x :: todo)) (hx : x ∈ Cn K.n K.D k)
    (h1 : c'.compPos = c.compPos.tail) (h2 : c'.proofPos = c.proofPos) (h3 : c'.hashes = c.hashes)
    (hg : ∀ r y p, k ≤ r → A2 r y = some p → A1 r y = some p ∧ hz c'.heap p = hz c.heap p)
    (hg2 : ∀ r y p, k ≤ r → A1 r y = some p → A2 r y = some p) : Prog K c' A2 k todo where
  comp := by rw [h1, P.comp, List.filter_cons_of_pos (by simpa using hx)]; rfl
  proof := by rw [h2, P.proof, List.filter_cons_of_neg (by simpa using hx)]
  hash := by intro hh; rw [h3, ← pend_comp hx]; exact P.hash hh
  good := by
    intro hh r y p hy ho hp
    obtain ⟨e1, e2⟩ := hg r y p (by omega) hp
    rw [e2]
    refine P.good hh r y p hy ?_ e1
    rcases ho with ho | ⟨rfl, ho⟩
    · exact .inl ho
    · right
      refine ⟨rfl, ?_⟩
      rw [List.mem_cons]
      rintro (rfl | h)
      · exact ((mem_Pn hK.sane).1 hy).2.2 hx
      · exact ho h
  back := by
    intro v hv hr
    refine P.back v ?_ (by rw [pend_comp hx, ← h3]; exact hr)
    intro r y p hy ho hp
    obtain ⟨e1, e2⟩ := hg r y p (by omega) (hg2 r y p (by omega) hp)
    rw [← e2]
    refine hv r y p hy ?_ (hg2 r y p (by omega) hp)
    rcases ho with ho | ⟨rfl, ho⟩
    · exact .inl ho
    · exact .inr ⟨rfl, fun h => ho (List.mem_cons_of_mem _ h)⟩

/-- The iterators after a proof node. -/
theorem Prog.proof_step {c' : CPT H} (hK : K.Ok) (P : Prog K c A1 k (x :: todo)) (hx : x ∉ Cn K.n K.D k)
    (h1 : c'.compPos = c.compPos) (h2 : c'.proofPos = c.proofPos.tail)
    (h3 : K.hon → ∀ q, Reads HashOps.zero (((K.A0 k x).isSome, K.c k x) :: q) c.hashes → Reads HashOps.zero q c'.hashes)
    (hb : ∀ w : H, (∀ p, A1 k x = some p → hz c'.heap p = some w) → ∀ q, Reads HashOps.zero q c'.hashes →
      Reads HashOps.zero (((K.A0 k x).isSome, w) :: q) c.hashes)
    (hg : ∀ r y p, ¬ (r = k ∧ y = x) → A1 r y = some p → hz c'.heap p = hz c.heap p)
    (hg' : K.hon → ∀ p, A1 k x = some p → hz c'.heap p = some (K.c k x)) (hnd : x ∉ todo) (hxP : x ∈ Pn K.n K.D k) :
    Prog K c' A1 k todo where
  comp := by rw [h1, P.comp, List.filter_cons_of_neg (by simpa using hx)]
  proof := by rw [h2, P.proof, List.filter_cons_of_pos (by simpa using hx)]; rfl
  hash := by
    intro hh
    have h := P.hash hh
    rw [pend_proof hx] at h
    exact h3 hh _ h
  good := by
    intro hh r y p hy ho hp
    by_cases e : r = k ∧ y = x
    · obtain ⟨rfl, rfl⟩ := e
      exact hg' hh p hp
    · rw [hg r y p e hp]
      refine P.good hh r y p hy ?_ hp
      rcases ho with ho | ⟨rfl, ho⟩
      · exact .inl ho
      · right
        refine ⟨rfl, ?_⟩
        rw [List.mem_cons]
        rintro (rfl | h)
        · exact e ⟨rfl, rfl⟩
        · exact ho h
  back := by
    intro v hv hr
    refine P.back v ?_ ?_
    · intro r y p hy ho hp
      rw [← hg r y p ?_ hp]
      · refine hv r y p hy ?_ hp
        rcases ho with ho | ⟨rfl, ho⟩
        · exact .inl ho
        · exact .inr ⟨rfl, fun h => ho (List.mem_cons_of_mem _ h)⟩
      · rintro ⟨rfl, rfl⟩
        rcases ho with ho | ho
        · omega
        · exact ho.2 (List.mem_cons_self ..)
    · rw [pend_proof hx]
      exact hb _ (fun p hp => hv k x p hxP (.inr ⟨rfl, hnd⟩) hp) _ hr

/-- `vn` of a computed node after marking it. -/
theorem vn_target {n : ℕ} {D : List ℕ} {A0 A1 : Addr} {cs : List (ℕ × ℕ)} {k x : ℕ} {dn : List ℕ} {ν : ℕ → ℕ → Bool} :
    VNode.mk (vn n A0 A1 cs (tau n D k dn) ν (k, x)).node (vn n A0 A1 cs (tau n D k dn) ν (k, x)).sib
      (vn n A0 A1 cs (tau n D k dn) ν (k, x)).parent (posOf (St.numRows n) k x)
      (vn n A0 A1 cs (tau n D k dn) ν (k, x)).valid true (vn n A0 A1 cs (tau n D k dn) ν (k, x)).cached
      (vn n A0 A1 cs (tau n D k dn) ν (k, x)).sibCached = vn n A0 A1 cs (tau n D k (x :: dn)) ν (k, x) := by
  have : tau n D k (x :: dn) k x = true := by unfold tau; simp
  unfold vn
  rw [this]

theorem list_set_self {α : Type} {l : List α} {i : ℕ} {z : α} (h : l[i]? = some z) : l.set i z = l := by
  apply List.ext_getElem?
  intro j
  rw [List.getElem?_set]
  split
  · next e => subst e; rw [if_pos (lt_of_get h), h]
  · rfl

theorem vn_nontarget {n : ℕ} {D : List ℕ} {A0 A1 : Addr} {cs : List (ℕ × ℕ)} {k x : ℕ} {dn : List ℕ} {ν : ℕ → ℕ → Bool}
    (h : x ∉ dn) : VNode.mk (vn n A0 A1 cs (tau n D k dn) ν (k, x)).node (vn n A0 A1 cs (tau n D k dn) ν (k, x)).sib
      (vn n A0 A1 cs (tau n D k dn) ν (k, x)).parent (posOf (St.numRows n) k x)
      (vn n A0 A1 cs (tau n D k dn) ν (k, x)).valid false (vn n A0 A1 cs (tau n D k dn) ν (k, x)).cached
      (vn n A0 A1 cs (tau n D k dn) ν (k, x)).sibCached = vn n A0 A1 cs (tau n D k dn) ν (k, x) := by
  have : tau n D k dn k x = false := by unfold tau; simp [h]
  unfold vn
  rw [this]

end

/-- Processing a computed node above the leaves. -/
theorem cptNode_comp {K : Ctx H} {c : CPT H} {q x : ℕ} {todo dn next : List ℕ} {cs : List (ℕ × ℕ)} {A1 : Addr} (hK : K.Ok)
    (I : CI K c (q + 1) dn cs A1) (P : Prog K c A1 (q + 1) (x :: todo)) (hx : x ∈ Cn K.n K.D (q + 1)) (hd : x ∉ dn)
    (htd : ∀ y ∈ todo, y ∈ Vn K.n K.D (q + 1)) :
    ∃ (c' : CPT H) (A2 : Addr), cptNode K.n c next (cs.idxOf (q + 1, x)) =
        .ok (.cont (c', cs.length :: (cs.length + 1) :: next)) ∧
      CI K c' (q + 1) (x :: dn) (cs ++ [(q, 2 * x), (q, 2 * x + 1)]) A2 ∧ Prog K c' A2 (q + 1) todo := by
  have hin := (Cn_ok hK.sane _).2 x hx
  have hm : (q + 1, x) ∈ cs := (I.mem _ _).2 (.inl ⟨le_rfl, Cn_sub hK.sane hx⟩)
  obtain ⟨e1, e2⟩ := P.comp_head hK hx htd
  obtain ⟨p, hp⟩ := I.hold hK hm
  have hnl : ¬ posOf (St.numRows K.n) (q + 1) x < K.n := by
    rw [pos_lt_iff hK.sane.n62 hin]; omega
  obtain ⟨g, A2, w, s2, p0, p1, same, ext, new, len, hzs, hfl, hfn⟩ := initChildren_ok (id := cs.idxOf (q + 1, x)) hK.sane.n62 I.shape hin hp
    (v := vn K.n K.A0 A1 cs (tau K.n K.D (q + 1) (x :: dn)) (fun _ _ => false) (q + 1, x)) hp rfl
  have hlen : c.arena.length = cs.length := by rw [I.arena, List.length_map]
  have I2 := I.grow (c' := CPT.mk g c.roots (c.arena.set (cs.idxOf (q + 1, x))
      (vn K.n K.A0 A1 cs (tau K.n K.D (q + 1) (x :: dn)) (fun _ _ => false) (q + 1, x)) ++
      [kidNode (A2 q (2 * x)) (A2 q (2 * x + 1)) (cs.idxOf (q + 1, x)) (posOf (St.numRows K.n) q (2 * x))
        (A1 q (2 * x)).isSome (A1 q (2 * x + 1)).isSome,
       kidNode (A2 q (2 * x + 1)) (A2 q (2 * x)) (cs.idxOf (q + 1, x)) (posOf (St.numRows K.n) q (2 * x + 1))
        (A1 q (2 * x + 1)).isSome (A1 q (2 * x)).isSome])
      (c.recovery ++ recoveryEntry (cs.idxOf (q + 1, x)) (A1 q (2 * x)).isNone (A1 q (2 * x + 1)).isNone)
      c.hashes c.proofPos c.compPos.tail)
      hK hx hd rfl rfl rfl s2 p0 p1 same ext new len hzs (fun t ht hh => hfl t ht (by rintro rfl; exact hh hp)) hfn rfl rfl rfl
  refine ⟨_, A2, ?_, I2, ?_⟩
  rotate_left
  · refine P.comp_step hK hx rfl rfl rfl ?_ ?_
    · intro r y t hr ht
      rw [same r y (by omega)] at ht
      exact ⟨ht, hzs t (I.shape.bnd _ _ _ ht).2⟩
    · intro r y t _ ht
      exact ext r y t ht
  · unfold cptNode
    rw [vecGet_ok (I.node hm)]
    simp only [ok_bind]
    have v1 : (vn K.n K.A0 A1 cs (tau K.n K.D (q + 1) dn) (fun _ _ => false) (q + 1, x)).pos = posOf (St.numRows K.n) (q + 1) x := rfl
    have e1' : (c.compPos.head? == some (posOf (St.numRows K.n) (q + 1) x)) = true := by rw [e1]; simp
    rw [v1, e1', e2]
    simp only [Bool.and_true, Bool.not_false, Bool.or_true, cassert, if_true, ok_bind]
    rw [if_neg hnl, vn_target, w]
    simp only [ok_bind, pure_ok, List.length_set, hlen]
    rw [if_neg hnl]

/-- Processing a computed leaf. -/
theorem cptNode_leaf {K : Ctx H} {c : CPT H} {x : ℕ} {todo dn next : List ℕ} {cs : List (ℕ × ℕ)} {A1 : Addr} (hK : K.Ok)
    (I : CI K c 0 dn cs A1) (P : Prog K c A1 0 (x :: todo)) (hx : x ∈ Cn K.n K.D 0)
    (htd : ∀ y ∈ todo, y ∈ Vn K.n K.D 0) :
    ∃ c' : CPT H, cptNode K.n c next (cs.idxOf (0, x)) = .ok (.cont (c', cs.idxOf (0, x) :: next)) ∧
      CI K c' 0 (x :: dn) cs A1 ∧ Prog K c' A1 0 todo := by
  have hin := (Cn_ok hK.sane _).2 x hx
  have hm : (0, x) ∈ cs := (I.mem _ _).2 (.inl ⟨le_rfl, Cn_sub hK.sane hx⟩)
  obtain ⟨e1, e2⟩ := P.comp_head hK hx htd
  have hnl : posOf (St.numRows K.n) 0 x < K.n := (pos_lt_iff hK.sane.n62 hin).2 rfl
  have I2 := I.leaf (c' := CPT.mk c.heap c.roots (c.arena.set (cs.idxOf (0, x))
      (vn K.n K.A0 A1 cs (tau K.n K.D 0 (x :: dn)) (fun _ _ => false) (0, x))) c.recovery c.hashes c.proofPos c.compPos.tail)
      hx hm rfl rfl rfl rfl rfl
  refine ⟨_, ?_, I2, P.comp_step hK hx rfl rfl rfl (fun r y t _ ht => ⟨ht, rfl⟩) fun r y t _ ht => ht⟩
  unfold cptNode
  rw [vecGet_ok (I.node hm)]
  simp only [ok_bind]
  have v1 : (vn K.n K.A0 A1 cs (tau K.n K.D 0 dn) (fun _ _ => false) (0, x)).pos = posOf (St.numRows K.n) 0 x := rfl
  have e1' : (c.compPos.head? == some (posOf (St.numRows K.n) 0 x)) = true := by rw [e1]; simp
  rw [v1, e1', e2]
  simp only [Bool.and_true, Bool.not_false, Bool.or_true, cassert, if_true, ok_bind]
  rw [if_pos hnl, if_pos hnl, vn_target]
  rfl

/-- Processing a proof node. -/
theorem cptNode_proof {K : Ctx H} {c : CPT H} {k x : ℕ} {todo dn next : List ℕ} {cs : List (ℕ × ℕ)} {A1 : Addr} (hK : K.Ok)
    (I : CI K c k dn cs A1) (P : Prog K c A1 k (x :: todo)) (hx : x ∉ Cn K.n K.D k) (hv : x ∈ Vn K.n K.D k)
    (hnd : x ∉ todo) :
    Out (fun a => CI K a.1 k dn cs A1 ∧ Prog K a.1 A1 k todo ∧ a.2 = if k = 0 then cs.idxOf (k, x) :: next else next)
      (Fc K) (Zc K) (cptNode K.n c next (cs.idxOf (k, x))) := by
  have hin := Vn_in hK.sane hv
  have hxP : x ∈ Pn K.n K.D k := ((Vn_cases hK.sane).1 hv).resolve_left hx
  have hrd : K.hon → Reads HashOps.zero (((K.A0 k x).isSome, K.c k x) :: pend K K.c k todo) c.hashes := by
    intro hon; rw [← pend_proof hx]; exact P.hash hon
  have hd : x ∉ dn := fun h => hx (I.dnc x h)
  have hm : (k, x) ∈ cs := (I.mem _ _).2 (.inl ⟨le_rfl, hv⟩)
  obtain ⟨e1, e2⟩ := P.proof_head hK hx hv
  obtain ⟨p, hp⟩ := Option.isSome_iff_exists.1 (I.pres _ _ hm)
  obtain ⟨z, hg⟩ := I.shape.get hp
  have hnext : (if posOf (St.numRows K.n) k x < K.n then cs.idxOf (k, x) :: next else next) =
      if k = 0 then cs.idxOf (k, x) :: next else next := by
    by_cases h0 : k = 0
    · rw [if_pos h0, if_pos ((pos_lt_iff hK.sane.n62 hin).2 h0)]
    · rw [if_neg h0, if_neg (fun h => h0 ((pos_lt_iff hK.sane.n62 hin).1 h))]
  unfold cptNode
  rw [vecGet_ok (I.node hm)]
  simp only [ok_bind]
  have v1 : (vn K.n K.A0 A1 cs (tau K.n K.D k dn) (fun _ _ => false) (k, x)).pos = posOf (St.numRows K.n) k x := rfl
  have v2 : (vn K.n K.A0 A1 cs (tau K.n K.D k dn) (fun _ _ => false) (k, x)).cached = (K.A0 k x).isSome := rfl
  have v3 : (vn K.n K.A0 A1 cs (tau K.n K.D k dn) (fun _ _ => false) (k, x)).node = some p := hp
  have e1' : (c.proofPos.head? == some (posOf (St.numRows K.n) k x)) = true := by rw [e1]; simp
  rw [v1, e1', e2]
  simp only [Bool.and_false, Bool.not_false, Bool.or_false, cassert, if_true, ok_bind, Bool.false_eq_true, if_false]
  rw [vn_nontarget hd, v2, v3, hnext, list_set_self (I.node hm)]
  cases h0 : K.A0 k x with
  | some p' =>
    have hpp : p' = p := by
      have := I.ext _ _ _ h0
      rw [hp] at this
      simpa using this.symm
    subst hpp
    have hc : z.hash = K.c k x := by
      have h1 := hK.hashed _ _ _ h0
      have h2 := I.old p' (hK.shape.bnd _ _ _ h0).2
      unfold hz at h2
      rw [hg, h1] at h2
      simpa using h2
    have hval : ∀ t, A1 k x = some t → hz c.heap t = some (K.c k x) := by
      intro t ht
      rw [hp] at ht
      simp only [Option.some.injEq] at ht
      subst ht
      unfold hz; rw [hg, Option.map_some, hc]
    have hw : ∀ w : H, (∀ t, A1 k x = some t → hz c.heap t = some w) → w = K.c k x := by
      intro w h
      have h1 := h p' hp
      rw [hval p' hp] at h1
      exact (Option.some.inj h1).symm
    simp only [h0, Option.isSome_some] at hrd
    simp only [Option.isSome_some, if_true]
    rw [deref_ok hg, ok_bind]
    cases hh : c.hashes with
    | nil =>
      simp only [hc]
      by_cases hzero : K.c k x = HashOps.zero
      · rw [if_pos hzero]
        refine ⟨rfl, ?_, k, x, p', h0, hzero⟩
        intro hon
        have h := hrd hon
        rw [hh] at h
        rcases h with ⟨t, h, _⟩ | h
        · simp at h
        · exact h.2.1 rfl hzero
      · rw [if_neg hzero]
        refine ⟨I.congr rfl rfl rfl rfl, P.proof_step hK hx rfl rfl ?_ ?_ (fun _ _ _ _ _ => rfl) (fun _ => hval) hnd hxP, rfl⟩
        · intro _ q hq
          rw [h0, hh] at hq
          rcases hq with ⟨t, h, _⟩ | h
          · simp at h
          · exact h.2.2
        · intro w h q hq
          rw [h0, hh, hw w h]
          exact .inr ⟨by simp, fun _ => hzero, hq⟩
    | cons h hs =>
      simp only [hc]
      by_cases he : K.c k x = h
      · rw [if_pos he]
        refine ⟨I.congr rfl rfl rfl rfl, P.proof_step hK hx rfl rfl ?_ ?_ (fun _ _ _ _ _ => rfl) (fun _ => hval) hnd hxP, rfl⟩
        · intro _ q hq
          rw [h0, hh] at hq
          rcases hq with ⟨t, h, h'⟩ | h
          · rw [(List.cons.inj h).2]; exact h'
          · exact absurd (by rw [he]; rfl) h.1
        · intro w h q hq
          rw [h0, hh, hw w h, he]
          exact .inl ⟨_, rfl, hq⟩
      · rw [if_neg he]
        refine ⟨I.congr rfl rfl rfl rfl, P.proof_step hK hx rfl rfl ?_ ?_ (fun _ _ _ _ _ => rfl) (fun _ => hval) hnd hxP, rfl⟩
        · intro _ q hq
          rw [h0, hh] at hq
          rcases hq with ⟨t, h, h'⟩ | h
          · exact absurd (List.cons.inj h).1.symm he
          · exact h.2.2
        · intro w h q hq
          rw [h0, hh, hw w h]
          exact .inr ⟨by simpa using fun h => he h.symm, by simp, hq⟩
  | none =>
    simp only [h0, Option.isSome_none] at hrd
    simp only [Option.isSome_none, Bool.false_eq_true, if_false]
    cases hh : c.hashes with
    | nil =>
      have hnh : ¬ K.hon := by
        intro hon
        obtain ⟨t, ht, _⟩ := hrd hon
        rw [hh] at ht; simp at ht
      exact ⟨hnh, k, dn, cs, A1, I.congr rfl rfl rfl rfl⟩
    | cons h hs =>
      have w : store c.heap (some p) { z with hash := h } = .ok _ := store_ok (lt_of_get hg) _
      simp only []
      rw [deref_ok hg, ok_bind, w, ok_bind]
      have hself : hz (c.heap.set p { z with hash := h }) p = some h := by
        rw [hz_set (lt_of_get hg), if_pos rfl]
      refine ⟨I.setHash hp h0 hg h rfl rfl rfl rfl, P.proof_step hK hx rfl rfl ?_ ?_ ?_ ?_ hnd hxP, rfl⟩
      · intro hon q hq
        rw [h0, hh] at hq
        obtain ⟨t, ht, hq⟩ := hq
        rw [(List.cons.inj ht).2]; exact hq
      · intro w' hw' q hq
        rw [h0, hh]
        have := hw' p hp
        rw [hself] at this
        exact ⟨_, by rw [Option.some.inj this], hq⟩
      · intro r y t hne ht
        show hz (c.heap.set p { z with hash := h }) t = _
        rw [hz_set (lt_of_get hg), if_neg]
        rintro rfl
        exact hne (I.inj ht hp)
      · intro hon t ht
        show hz (c.heap.set p { z with hash := h }) t = _
        rw [hp] at ht
        simp only [Option.some.injEq] at ht
        subst ht
        obtain ⟨t, ht, _⟩ := hrd hon
        rw [hh] at ht
        rw [hself, (List.cons.inj ht).1]

/-! ## One row -/

theorem cptRow_succ {K : Ctx H} {q : ℕ} (hK : K.Ok) : ∀ (todo : List ℕ) (c : CPT H) (dn : List ℕ) (cs : List (ℕ × ℕ)) (A1 : Addr),
    CI K c (q + 1) dn cs A1 → Prog K c A1 (q + 1) todo → todo.Pairwise (· > ·) → (∀ y ∈ todo, y ∈ Vn K.n K.D (q + 1)) →
    (∀ y ∈ todo, y ∉ dn) →
    Out (fun a => ∃ cs' A2, CI K a.1 (q + 1) ((todo.filter (fun x => decide (x ∈ Cn K.n K.D (q + 1)))).reverse ++ dn) cs' A2 ∧
        Prog K a.1 A2 (q + 1) [] ∧
        a.2 = (kidsL ((todo.filter (fun x => decide (x ∈ Cn K.n K.D (q + 1)))).reverse ++ dn)).map fun y => cs'.idxOf (q, y))
      (Fc K) (Zc K)
      (cptRow K.n (todo.map fun y => cs.idxOf (q + 1, y)) c ((kidsL dn).map fun y => cs.idxOf (q, y))) := by
  intro todo
  induction todo with
  | nil =>
    intro c dn cs A1 I P _ _ _
    exact ⟨cs, A1, I, P, rfl⟩
  | cons x todo ih =>
    intro c dn cs A1 I P hs hv hd
    obtain ⟨hs1, hs2⟩ := List.pairwise_cons.1 hs
    have hv' : ∀ y ∈ todo, y ∈ Vn K.n K.D (q + 1) := fun y hy => hv y (List.mem_cons_of_mem _ hy)
    have hd' : ∀ y ∈ todo, y ∉ dn := fun y hy => hd y (List.mem_cons_of_mem _ hy)
    rw [List.map_cons, cptRow]
    by_cases hx : x ∈ Cn K.n K.D (q + 1)
    · obtain ⟨c', A2, w, I2, P2⟩ := cptNode_comp (next := (kidsL dn).map fun y => cs.idxOf (q, y)) hK I P hx (hd x (by simp)) hv'
      rw [w]
      simp only [ok_bind]
      have hnd := I2.nodup
      rw [List.nodup_append] at hnd
      have n0 : (q, 2 * x) ∉ cs := fun h => hnd.2.2 _ h _ (by simp) rfl
      have n1 : (q, 2 * x + 1) ∉ cs := fun h => hnd.2.2 _ h _ (by simp) rfl
      have m1 : (todo.map fun y => cs.idxOf (q + 1, y)) =
          todo.map fun y => (cs ++ [(q, 2 * x), (q, 2 * x + 1)]).idxOf (q + 1, y) := by
        apply List.map_congr_left
        intro y hy
        exact (List.idxOf_append_of_mem ((I.mem _ _).2 (.inl ⟨le_rfl, hv' y hy⟩))).symm
      have m2 : (cs.length :: (cs.length + 1) :: (kidsL dn).map fun y => cs.idxOf (q, y)) =
          (kidsL (x :: dn)).map fun y => (cs ++ [(q, 2 * x), (q, 2 * x + 1)]).idxOf (q, y) := by
        rw [kidsL_cons, List.map_cons, List.map_cons, List.idxOf_append_of_notMem n0, List.idxOf_append_of_notMem n1]
        rw [List.idxOf_cons_self, List.idxOf_cons_ne _ (by simp), List.idxOf_cons_self]
        congr 2
        apply List.map_congr_left
        intro y hy
        exact (List.idxOf_append_of_mem ((I.mem _ _).2 (.inr ⟨rfl, mem_kidsL.1 hy⟩))).symm
      rw [m1, m2]
      have := ih c' (x :: dn) _ A2 I2 P2 hs2 hv' (by
        intro y hy
        rw [List.mem_cons, not_or]
        exact ⟨by have := hs1 y hy; omega, hd' y hy⟩)
      rw [List.filter_cons_of_pos (by simpa using hx), List.reverse_cons, List.append_assoc]
      exact this
    · have h := cptNode_proof (next := (kidsL dn).map fun y => cs.idxOf (q, y)) hK I P hx (hv x (by simp))
        (fun hc => lt_irrefl _ (hs1 x hc))
      rw [List.filter_cons_of_neg (by simpa using hx)]
      generalize cptNode K.n c ((kidsL dn).map fun y => cs.idxOf (q, y)) (cs.idxOf (q + 1, x)) = R at h ⊢
      rcases R with e | (⟨c', n'⟩ | a)
      · exact h
      · obtain ⟨I2, P2, e⟩ := h
        simp only [ok_bind]
        rw [if_neg (by omega)] at e
        simp only at e I2 P2
        rw [e]
        exact ih c' dn cs A1 I2 P2 hs2 hv' hd'
      · exact h

theorem cptRow_zero {K : Ctx H} (hK : K.Ok) {cs : List (ℕ × ℕ)} {A1 : Addr} : ∀ (todo : List ℕ) (c : CPT H) (dn pr : List ℕ),
    CI K c 0 dn cs A1 → Prog K c A1 0 todo → todo.Nodup → (∀ y ∈ todo, y ∈ Vn K.n K.D 0) →
    Out (fun a => CI K a.1 0 ((todo.filter (fun x => decide (x ∈ Cn K.n K.D 0))).reverse ++ dn) cs A1 ∧
        Prog K a.1 A1 0 [] ∧ a.2 = (todo.reverse ++ pr).map fun y => cs.idxOf (0, y))
      (Fc K) (Zc K)
      (cptRow K.n (todo.map fun y => cs.idxOf (0, y)) c (pr.map fun y => cs.idxOf (0, y))) := by
  intro todo
  induction todo with
  | nil =>
    intro c dn pr I P _ _
    exact ⟨I, P, rfl⟩
  | cons x todo ih =>
    intro c dn pr I P hnd hv
    obtain ⟨hs1, hs2⟩ := List.nodup_cons.1 hnd
    have hv' : ∀ y ∈ todo, y ∈ Vn K.n K.D 0 := fun y hy => hv y (List.mem_cons_of_mem _ hy)
    rw [List.map_cons, cptRow]
    have er : (x :: todo).reverse ++ pr = todo.reverse ++ (x :: pr) := by simp
    by_cases hx : x ∈ Cn K.n K.D 0
    · obtain ⟨c', w, I2, P2⟩ := cptNode_leaf (next := pr.map fun y => cs.idxOf (0, y)) hK I P hx hv'
      rw [w]
      simp only [ok_bind]
      have := ih c' (x :: dn) (x :: pr) I2 P2 hs2 hv'
      rw [List.filter_cons_of_pos (by simpa using hx), List.reverse_cons (as := List.filter _ _), List.append_assoc, er]
      exact this
    · have h := cptNode_proof (next := pr.map fun y => cs.idxOf (0, y)) hK I P hx (hv x (by simp)) hs1
      rw [List.filter_cons_of_neg (by simpa using hx), er]
      generalize cptNode K.n c (pr.map fun y => cs.idxOf (0, y)) (cs.idxOf (0, x)) = R at h ⊢
      rcases R with e | (⟨c', n'⟩ | a)
      · exact h
      · obtain ⟨I2, P2, e⟩ := h
        simp only [ok_bind]
        rw [if_pos rfl] at e
        simp only at e I2 P2
        rw [e]
        exact ih c' dn (x :: pr) I2 P2 hs2 hv'
      · exact h

/-! ## Attaching a root -/

/-- The root node object made by `CreateProofTree`. -/
def rootVNode (p : Option ℕ) (pos : ℕ) : VNode where
  node := p
  sib := p
  parent := none
  pos := pos
  valid := false
  target := false
  cached := true
  sibCached := true

theorem tau_shift (n : ℕ) (D : List ℕ) (k r x : ℕ) : tau n D (k + 1) (Cn n D (k + 1)) r x = tau n D k [] r x := by
  unfold tau
  rw [decide_eq_decide]
  simp only [List.not_mem_nil, and_false, or_false]
  constructor
  · rintro (h | ⟨rfl, h⟩)
    · exact ⟨by omega, h.2⟩
    · exact ⟨by omega, h⟩
  · intro h
    by_cases e : r = k + 1
    · subst e; exact .inr ⟨rfl, h.2⟩
    · exact .inl ⟨by omega, h.2⟩

theorem CI.down {K : Ctx H} {c c' : CPT H} {k : ℕ} {cs : List (ℕ × ℕ)} {A1 : Addr} (hK : K.Ok)
    (I : CI K c (k + 1) (Cn K.n K.D (k + 1)) cs A1) {rs : List (ℕ × ℕ)} {vs : List VNode}
    (hrs : rs = ((Cn K.n K.D k).filter (rtOf K.n k)).map fun x => (k, x)) (hnd : rs.Nodup)
    (hvs : vs = rs.map (vn K.n K.A0 A1 (cs ++ rs) (tau K.n K.D k []) (fun _ _ => false)))
    (h1 : c'.heap = c.heap) (h2 : c'.arena = c.arena ++ vs) (h3 : c'.recovery = c.recovery)
    (h4 : RootsAt c'.roots K.A0 (rootCoords K.n)) : CI K c' k [] (cs ++ rs) A1 := by
  have mr : ∀ r x, (r, x) ∈ rs ↔ r = k ∧ x ∈ Cn K.n K.D k ∧ rtOf K.n k x = true := by
    intro r x
    rw [hrs, List.mem_map]
    constructor
    · rintro ⟨y, hy, e⟩
      simp only [Prod.mk.injEq] at e
      obtain ⟨rfl, rfl⟩ := e
      exact ⟨rfl, List.mem_filter.1 hy⟩
    · rintro ⟨rfl, h⟩
      exact ⟨x, List.mem_filter.2 h, rfl⟩
  have dis : ∀ r x, (r, x) ∈ cs → (r, x) ∉ rs := by
    intro r x h hr
    rw [mr] at hr
    obtain ⟨rfl, h2, h3⟩ := hr
    rcases (I.mem _ _).1 h with h | h
    · omega
    · rw [rtOf_false ((Cn_ok hK.sane _).2 _ h.2)] at h3; simp at h3
  refine ⟨by rw [h1]; exact I.shape, I.ext, fun r x p h h0 => ⟨(I.new _ _ _ h h0).1, List.mem_append_left _ (I.new _ _ _ h h0).2⟩,
    by rw [h1]; exact I.old, by rw [h1]; exact I.len, ?_, ?_, ?_, ?_, by simp, ?_, ?_, h4, by rw [h1]; exact I.flg, by rw [h1]; exact I.fnew⟩
  · rw [h2, List.map_append, hvs, I.arena]
    congr 1
    apply List.map_congr_left
    rintro ⟨r, x⟩ hx
    refine (vn_congr rfl rfl ?_ (tau_shift _ _ _ _ _).symm rfl).symm
    intro hrt
    exact List.idxOf_append_of_mem (I.parent hK hx hrt)
  · rw [List.nodup_append]
    refine ⟨I.nodup, hnd, ?_⟩
    rintro ⟨r, x⟩ ha b hb rfl
    exact dis _ _ ha hb
  · intro r x
    rw [List.mem_append, I.mem, mr]
    simp only [List.not_mem_nil, and_false, or_false]
    constructor
    · rintro ((h | h) | h)
      · exact ⟨by omega, h.2⟩
      · have : r = k := by omega
        subst this
        exact ⟨le_rfl, (mem_Vn hK.sane).2 (.inl h.2)⟩
      · obtain ⟨rfl, h2, h3⟩ := h
        exact ⟨le_rfl, Cn_sub hK.sane h2⟩
    · rintro ⟨h, hx⟩
      by_cases e : r = k
      · subst e
        rcases (mem_Vn hK.sane).1 hx with hx | hx
        · exact .inl (.inr ⟨rfl, hx⟩)
        · exact .inr ⟨rfl, hx⟩
      · exact .inl (.inl ⟨by omega, hx⟩)
  · intro r x h
    rcases List.mem_append.1 h with h | h
    · exact I.pres _ _ h
    · rw [mr] at h
      obtain ⟨rfl, h2, h3⟩ := h
      exact I.shape.root _ _ h3
  · intro r x
    rw [h3, I.rc]
    constructor <;> rintro ⟨e, he, h1, h2⟩ <;> refine ⟨e, he, ?_, h2⟩ <;> obtain ⟨a, b, hab⟩ := I.recs e he
    · rw [List.getElem?_append_left (lt_of_get hab)]; exact h1
    · rw [List.getElem?_append_left (lt_of_get hab)] at h1; exact h1
  · intro e he
    rw [h3] at he
    obtain ⟨a, b, hab⟩ := I.recs e he
    exact ⟨a, b, by rw [List.getElem?_append_left (lt_of_get hab)]; exact hab⟩

theorem sorted_last {l : List ℕ} {m : ℕ} (hs : l.Pairwise (· < ·)) (hm : m ∈ l) (hb : ∀ x ∈ l, x ≤ m) :
    ∃ l', l = l' ++ [m] := by
  have hne : l ≠ [] := by rintro rfl; simp at hm
  refine ⟨l.dropLast, ?_⟩
  have e := List.dropLast_append_getLast hne
  have hl := hb _ (List.getLast_mem hne)
  have : l.getLast hne = m := by
    by_contra hc
    rw [← e] at hm hs
    rcases List.mem_append.1 hm with h | h
    · have := (List.pairwise_append.1 hs).2.2 m h _ (List.mem_singleton.2 rfl)
      omega
    · exact hc (List.mem_singleton.1 h).symm
  rw [this] at e
  exact e.symm

theorem rootIndex_root {n k : ℕ} (hn : n ≤ 2 ^ 62) (hb : n.testBit k = true) :
    ∃ i, St.rootIndex n (posOf (St.numRows n) k (rootIdx n k)) = .ok i ∧ (rootCoords n)[i]? = some (k, rootIdx n k) := by
  have hin := Ram.root_in hb
  obtain ⟨t, tree, bits, h1, h2, h3, h4, h5⟩ := path_eq (by omega) (inForest_iff.2 hin)
  have hk : InTree n k (rootIdx n k * 2 ^ k) := by
    rw [rootIdx_mul]
    exact ⟨hb, le_rfl, by have := Nat.two_pow_pos k; omega⟩
  obtain rfl := inTree_unique hk h2
  rw [Ram.treeRows_eq hn le_rfl] at h3
  refine ⟨tree, ?_, ?_⟩
  · unfold St.rootIndex; rw [h5]; rfl
  · unfold rootCoords; rw [List.getElem?_map, h3]; rfl

theorem RootsAt.setPos {roots : List PNode} {A : Addr} {cs : List (ℕ × ℕ)} (h : RootsAt roots A cs) {i : ℕ} {x y : PNode}
    (hx : roots[i]? = some x) (h1 : y.e.node = x.e.node) (h2 : y.e.sib = x.e.sib) (h3 : y.up = []) : RootsAt (roots.set i y) A cs := by
  refine h.mapPos ?_ ?_ fun r hr => ?_
  · rw [List.map_set, h1]
    apply list_set_self
    rw [List.getElem?_map, hx]; rfl
  · rw [List.map_set, h2]
    apply list_set_self
    rw [List.getElem?_map, hx]; rfl
  · rcases List.mem_or_eq_of_mem_set hr with h' | rfl
    · exact h.up r h'
    · exact h3

theorem attachRoot_ok {K : Ctx H} {c : CPT H} {k : ℕ} {cs : List (ℕ × ℕ)} {A1 : Addr} (hK : K.Ok) (hk : k ≤ St.numRows K.n)
    (I : CI K c (k + 1) (Cn K.n K.D (k + 1)) cs A1) (P : Prog K c A1 (k + 1) []) :
    ∃ (c' : CPT H) (cs' : List (ℕ × ℕ)), attachRoot K.n k c ((kidsL (Cn K.n K.D (k + 1))).map fun y => cs.idxOf (k, y)) =
        .ok (c', (Vn K.n K.D k).map fun y => cs'.idxOf (k, y)) ∧
      CI K c' k [] cs' A1 ∧ Prog K c' A1 k (Vn K.n K.D k).reverse := by
  have hR := numRows_le_62 hK.sane.n62
  have hcomp : c.compPos = (Cn K.n K.D k).reverse.map (posOf (St.numRows K.n) k) ++ posRev (St.numRows K.n) (Cn K.n K.D) k := P.comp
  have prog : ∀ c' : CPT H, c'.compPos = c.compPos → c'.proofPos = c.proofPos → c'.hashes = c.hashes → c'.heap = c.heap →
      Prog K c' A1 k (Vn K.n K.D k).reverse := by
    intro c' g1 g2 g3 g4
    have hpend : ∀ v, pend K v k (Vn K.n K.D k).reverse = pend K v (k + 1) [] := by
      intro v
      unfold pend
      rw [List.filter_reverse, Vn_proof hK.sane]; rfl
    refine ⟨?_, ?_, ?_, ?_, ?_⟩
    · rw [g1, hcomp, List.filter_reverse, Vn_comp hK.sane]
    · rw [g2, P.proof, List.filter_reverse, Vn_proof hK.sane]; rfl
    · intro hh
      rw [g3, hpend]; exact P.hash hh
    · intro hh r x p hx ho hp
      rw [g4]
      refine P.good hh r x p hx ?_ hp
      rcases ho with ho | ⟨rfl, ho⟩
      · by_cases e : r = k + 1
        · exact .inr ⟨e, by simp⟩
        · exact .inl (by omega)
      · exact absurd (List.mem_reverse.2 ((Vn_cases hK.sane).2 (.inr hx))) ho
    · intro v hv hr
      refine P.back v ?_ (by rw [← hpend, ← g3]; exact hr)
      intro r x p hx ho hp
      rw [← g4]
      exact hv r x p hx (.inl (by omega)) hp
  have kids_in : ∀ y ∈ kidsL (Cn K.n K.D (k + 1)), (k, y) ∈ cs := fun y hy => (I.mem _ _).2 (.inr ⟨rfl, mem_kidsL.1 hy⟩)
  by_cases hroot : K.n.testBit k = true ∧ rootIdx K.n k ∈ Cn K.n K.D k
  · obtain ⟨hb, hm⟩ := hroot
    have hin := Ram.root_in hb
    have hfil : (Cn K.n K.D k).filter (rtOf K.n k) = [rootIdx K.n k] := by
      apply sorted_ext hK.sane ((Cn_ok hK.sane k).1.filter _) (by simp)
      intro x
      rw [List.mem_filter, rtOf_true, List.mem_singleton]
      constructor
      · exact fun h => h.2.2
      · rintro rfl; exact ⟨hm, hb, rfl⟩
    have hrt : rtOf K.n k (rootIdx K.n k) = true := rtOf_true.2 ⟨hb, rfl⟩
    obtain ⟨l', hl'⟩ := sorted_last (Cn_ok hK.sane k).1 hm (by
      intro x hx
      have h1 := (Cn_ok hK.sane k).2 x hx
      have h2 := testBit_div (n := K.n) (t := k)
      rw [if_pos hb] at h2
      rw [rootIdx_le]; omega)
    have hhead : c.compPos = posOf (St.numRows K.n) k (rootIdx K.n k) :: c.compPos.tail := by
      rw [hcomp, hl', List.reverse_append]; rfl
    obtain ⟨i, hi1, hi2⟩ := rootIndex_root hK.sane.n62 hb
    obtain ⟨x, hx, hx1, hx2⟩ := I.roots.get hi2
    have hA : K.A0 k (rootIdx K.n k) = A1 k (rootIdx K.n k) := by
      obtain ⟨p, hp⟩ := Option.isSome_iff_exists.1 (hK.shape.root _ _ hrt)
      rw [hp, I.ext _ _ _ hp]
    set y : PNode := PNode.mk ⟨A1 k (rootIdx K.n k), A1 k (rootIdx K.n k), posOf (St.numRows K.n) k (rootIdx K.n k)⟩ x.up with hy
    have I2 := I.down (c' := CPT.mk c.heap (c.roots.set i y) (c.arena ++ [rootVNode (A1 k (rootIdx K.n k)) (posOf (St.numRows K.n) k (rootIdx K.n k))])
        c.recovery c.hashes c.proofPos c.compPos) (rs := [(k, rootIdx K.n k)])
        (vs := [rootVNode (A1 k (rootIdx K.n k)) (posOf (St.numRows K.n) k (rootIdx K.n k))]) hK (by rw [hfil]; rfl) (by simp) (by
          have hs : (K.A0 k (rootIdx K.n k)).isSome = true := hK.shape.root _ _ hrt
          have ht : tau K.n K.D k [] k (rootIdx K.n k) = false := by unfold tau; simp
          simp only [List.map_cons, List.map_nil]
          unfold vn rootVNode
          simp only [holder_root hrt, hrt, hs, ht, if_true, Bool.true_or]) rfl rfl rfl
        (I.roots.setPos hx (by rw [hx1, hA]) (by rw [hx2, hA]) (I.roots.up x (List.mem_of_getElem? hx)))
    refine ⟨_, _, ?_, I2, prog _ rfl rfl rfl rfl⟩
    unfold attachRoot
    rw [hhead]
    simp only []
    rw [hasRoot_eq (by omega), ok_bind, hb, if_pos rfl, rootPosition_eq hK.sane.n62 hk, ok_bind, if_pos rfl, hi1, ok_bind, vecAt_ok hx,
      ok_bind, hx1, hx2, hA]
    have hlen : c.arena.length = cs.length := by rw [I.arena, List.length_map]
    have htree : ((kidsL (Cn K.n K.D (k + 1))).map fun y => cs.idxOf (k, y)) ++ [c.arena.length] =
        (Vn K.n K.D k).map fun y => (cs ++ [(k, rootIdx K.n k)]).idxOf (k, y) := by
      unfold Vn
      rw [hfil, List.map_append]
      congr 1
      · apply List.map_congr_left
        intro y hy
        exact (List.idxOf_append_of_mem (kids_in y hy)).symm
      · have hnd := I2.nodup
        rw [List.nodup_append] at hnd
        have n0 : (k, rootIdx K.n k) ∉ cs := fun h => hnd.2.2 _ h _ (by simp) rfl
        simp only [List.map_cons, List.map_nil]
        rw [List.idxOf_append_of_notMem n0, List.idxOf_cons_self, hlen]; rfl
    rw [htree, ← hhead]
    rfl
  · have hfil : (Cn K.n K.D k).filter (rtOf K.n k) = [] := by
      rw [List.filter_eq_nil_iff]
      intro x hx hc
      rw [rtOf_true] at hc
      exact hroot ⟨hc.1, hc.2 ▸ hx⟩
    have I2 := I.down (c' := c) (rs := []) (vs := []) hK (by rw [hfil]; rfl) (by simp) rfl rfl (by simp) rfl I.roots
    rw [List.append_nil] at I2
    refine ⟨c, cs, ?_, I2, prog c rfl rfl rfl rfl⟩
    have hV : (kidsL (Cn K.n K.D (k + 1))) = Vn K.n K.D k := by unfold Vn; rw [hfil, List.append_nil]
    rw [hV]
    unfold attachRoot
    cases hc : c.compPos with
    | nil => rfl
    | cons p ps =>
      simp only []
      rw [hasRoot_eq (by omega), ok_bind]
      by_cases hb : K.n.testBit k = true
      · rw [hb, if_pos rfl, rootPosition_eq hK.sane.n62 hk, ok_bind, if_neg]
        · rfl
        · intro he
          have hpm : p ∈ c.compPos := by rw [hc]; simp
          rw [hcomp, List.mem_append] at hpm
          rcases hpm with hpm | hpm
          · obtain ⟨z, hz1, rfl⟩ := List.mem_map.1 hpm
            have hz2 := List.mem_reverse.1 hz1
            have := pos_ne hK.sane.n62 ((Cn_ok hK.sane k).2 z hz2) (Ram.root_in hb) (by
              rintro ⟨-, rfl⟩; exact hroot ⟨hb, hz2⟩)
            exact this he
          · obtain ⟨q, z, h1, h2, rfl⟩ := mem_posRev hpm
            exact pos_ne hK.sane.n62 ((Cn_ok hK.sane q).2 z h2) (Ram.root_in hb) (by omega) he
      · simp only [Bool.not_eq_true] at hb
        rw [hb]; rfl

/-! ## All rows -/

/-- The construction succeeded. -/
def Pc (K : Ctx H) (a : CPT H × List ℕ) : Prop := ∃ cs A1, CI K a.1 0 K.D cs A1 ∧ Prog K a.1 A1 0 [] ∧
  a.2 = (Vn K.n K.D 0).map fun y => cs.idxOf (0, y)

theorem cptRows_ok {K : Ctx H} (hK : K.Ok) : ∀ (k : ℕ) (c : CPT H) (cs : List (ℕ × ℕ)) (A1 : Addr), k ≤ St.numRows K.n →
    CI K c (k + 1) (Cn K.n K.D (k + 1)) cs A1 → Prog K c A1 (k + 1) [] →
    Out (Pc K) (Fc K) (Zc K) (cptRows K.n (k + 1) c ((kidsL (Cn K.n K.D (k + 1))).map fun y => cs.idxOf (k, y))) := by
  intro k
  induction k with
  | zero =>
    intro c cs A1 hk I P
    obtain ⟨c', cs', w, I2, P2⟩ := attachRoot_ok hK hk I P
    rw [cptRows, w]
    simp only [ok_bind]
    rw [← List.map_reverse]
    have h := cptRow_zero hK _ c' [] [] I2 P2 (List.nodup_reverse.2 ((Vn_sorted hK.sane 0).imp (fun h => by omega))) (fun y hy => List.mem_reverse.1 hy)
    rw [List.map_nil] at h
    generalize cptRow K.n ((Vn K.n K.D 0).reverse.map fun y => cs'.idxOf (0, y)) c' [] = R at h ⊢
    rcases R with e | (⟨c2, n'⟩ | a)
    · exact h
    · obtain ⟨I3, P3, e⟩ := h
      rw [List.filter_reverse, Vn_comp hK.sane, List.reverse_reverse, List.append_nil] at I3
      rw [List.reverse_reverse, List.append_nil] at e
      exact ⟨cs', A1, I3, P3, e⟩
    · exact h
  | succ k ih =>
    intro c cs A1 hk I P
    obtain ⟨c', cs', w, I2, P2⟩ := attachRoot_ok hK hk I P
    rw [cptRows, w]
    simp only [ok_bind]
    rw [← List.map_reverse]
    have h := cptRow_succ hK _ c' [] cs' A1 I2 P2 (by rw [List.pairwise_reverse]; exact Vn_sorted hK.sane _)
      (fun y hy => List.mem_reverse.1 hy) (by simp)
    have hn : ((kidsL []).map fun y => cs'.idxOf (k, y)) = [] := rfl
    rw [hn] at h
    generalize cptRow K.n ((Vn K.n K.D (k + 1)).reverse.map fun y => cs'.idxOf (k + 1, y)) c' [] = R at h ⊢
    rcases R with e | (⟨c2, n'⟩ | a)
    · exact h
    · obtain ⟨cs2, A2, I3, P3, e⟩ := h
      rw [List.filter_reverse, Vn_comp hK.sane, List.reverse_reverse, List.append_nil] at I3 e
      simp only [ok_bind]
      simp only at e I3 P3
      rw [e]
      exact ih c2 cs2 A2 (by omega) I3 P3
    · exact h

/-- What `CreateProofTree` returns. -/
theorem createProofTree_ok {K : Ctx H} {s : Pollard H} {proof : BatchProof H} (hK : K.Ok) (hn : s.numLeaves = K.n)
    (hh : s.ext = K.heap0) (hr : RootsAt s.roots K.A0 (rootCoords K.n)) (hD : proof.sorted = K.D)
    (hprf : K.prf = proof.hashes.reverse)
    (hon : K.hon → Reads HashOps.zero (planRev K.A0 K.c (Pn K.n K.D) (St.numRows K.n + 1)) K.prf) :
    (createProofTree s proof = .error .ub ∧ Zc K) ∨
    (∃ c tree, createProofTree s proof = .ok (true, c, tree) ∧ Pc K (c, tree) ∧ c.hashes = []) ∨
    (∃ c tree, createProofTree s proof = .ok (false, c, tree) ∧ ¬ K.hon ∧ ∃ k dn cs A1, CI K c k dn cs A1) := by
  unfold createProofTree
  simp only [hn, hD, hh]
  rw [proofPositions_rows hK.sane]
  simp only [ok_bind]
  rw [posRev_eq, posRev_eq]
  have hC := Cn_top hK.sane (k := St.numRows K.n + 1) (by omega)
  have hV : ∀ r x, St.numRows K.n + 1 ≤ r → x ∉ Vn K.n K.D r := by
    intro r x hr hx
    have := (row_le hK.sane.n62 (Vn_in hK.sane hx)).1
    omega
  have I : CI K (CPT.mk K.heap0 s.roots [] [] proof.hashes.reverse
      (posRev (St.numRows K.n) (Pn K.n K.D) (St.numRows K.n + 1)) (posRev (St.numRows K.n) (Cn K.n K.D) (St.numRows K.n + 1)))
      (St.numRows K.n + 1) (Cn K.n K.D (St.numRows K.n + 1)) [] K.A0 := by
    refine ⟨hK.shape, fun _ _ _ h => h, fun r x p h h0 => ?_, fun _ _ => rfl, le_rfl, rfl, List.nodup_nil, ?_, ?_, fun _ h => h, ?_, ?_, hr, fun _ _ _ => rfl, fun _ _ h h0 => by rw [h0] at h; simp at h⟩
    · rw [h0] at h; simp at h
    · intro r x
      rw [hC]
      simp only [List.not_mem_nil, and_false, or_false, false_iff, not_and]
      exact fun h => hV r x h
    · intro r x h; simp at h
    · intro r x
      simp only [List.not_mem_nil, false_and, exists_false, iff_false, not_and]
      intro h; rw [h]; simp
    · intro e h; simp at h
  have P : Prog K (CPT.mk K.heap0 s.roots [] [] proof.hashes.reverse
      (posRev (St.numRows K.n) (Pn K.n K.D) (St.numRows K.n + 1)) (posRev (St.numRows K.n) (Cn K.n K.D) (St.numRows K.n + 1)))
      K.A0 (St.numRows K.n + 1) [] := by
    refine ⟨rfl, rfl, ?_, ?_, fun v _ hr => by rw [hprf]; exact hr⟩
    · intro h
      show Reads _ _ proof.hashes.reverse
      rw [← hprf]; exact hon h
    · intro h r x p hx ho _
      exfalso
      have := (row_le hK.sane.n62 (Pn_in hK.sane hx)).1
      omega
  have h := cptRows_ok hK (St.numRows K.n) _ [] K.A0 le_rfl I P
  have hn : ((kidsL (Cn K.n K.D (St.numRows K.n + 1))).map fun y => ([] : List (ℕ × ℕ)).idxOf (St.numRows K.n, y)) = [] := by rw [hC]; rfl
  rw [hn] at h
  generalize cptRows K.n (St.numRows K.n + 1) (CPT.mk K.heap0 s.roots [] [] proof.hashes.reverse _ _) [] = R at h ⊢
  rcases R with e | (⟨c2, n'⟩ | ⟨c2, n'⟩)
  · obtain ⟨rfl, h2⟩ := h
    exact .inl ⟨rfl, h2⟩
  · right
    simp only [ok_bind, pure_ok]
    cases he : c2.hashes with
    | nil => exact .inl ⟨c2, n', rfl, h, he⟩
    | cons a l =>
      right
      obtain ⟨cs, A1, I3, P3, e⟩ := h
      refine ⟨c2, n', rfl, ?_, _, _, _, _, I3⟩
      intro hon'
      have := P3.hash hon'
      rw [he] at this
      simp [pend, planRow, planRev, Reads] at this
  · exact .inr (.inr ⟨c2, [], rfl, h⟩)

end Pol
end Utreexo
