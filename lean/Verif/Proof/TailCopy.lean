import Verif.Proof.Tail
import Verif.Proof.CopyBare

/-!
# Removing whole trees from the end of a pollard

The roots that remain get back their own children, so no object changes.
-/

set_option linter.unusedSectionVars false

namespace Utreexo
open Spec Equiv

variable {H : Type} [DecidableEq H] [HashOps H]

namespace Tail

/-- The trees of a forest without its last trees are among those of the forest. -/
theorem trees {n n' t q : ℕ} (hd : 2 ^ t ∣ n') (hle : n' ≤ n) (hlt : n < n' + 2 ^ t) (hq : n'.testBit q = true) :
    n.testBit q = true ∧ rootIdx n q = rootIdx n' q := by
  obtain ⟨m, rfl⟩ := hd
  have hpos : 0 < 2 ^ t := Nat.two_pow_pos t
  have hqt : t ≤ q := by
    by_contra hc
    rw [Nat.mul_comm, Nat.testBit_mul_two_pow] at hq
    simp only [Bool.and_eq_true, decide_eq_true_eq] at hq
    omega
  have hnt : n / 2 ^ t = m := by
    apply Nat.div_eq_of_lt_le
    · rw [Nat.mul_comm]; exact hle
    · rw [Nat.add_mul, Nat.one_mul, Nat.mul_comm]; exact hlt
  have e : ∀ s, t ≤ s → n / 2 ^ s = 2 ^ t * m / 2 ^ s := by
    intro s hs
    have h1 : ∀ a : ℕ, a / 2 ^ s = a / 2 ^ t / 2 ^ (s - t) := by
      intro a
      rw [Nat.div_div_eq_div_mul, ← pow_add, show t + (s - t) = s by omega]
    rw [h1 n, h1 (2 ^ t * m), hnt, Nat.mul_div_cancel_left _ hpos]
  constructor
  · rw [Nat.testBit_eq_decide_div_mod_eq] at hq ⊢
    rw [e q hqt]
    exact hq
  · unfold rootIdx
    rw [e (q + 1) (by omega)]

end Tail

namespace Pol

theorem selectRoots_same {s : Pollard H} {n n' : ℕ} {A : Addr} {c : ℕ → ℕ → H} (h : PH s n A c) (hn : n ≤ 2 ^ 62) :
    ∀ (ts : List ℕ) (acc : List PNode), (∀ t ∈ ts, n.testBit t = true ∧ rootIdx n t = rootIdx n' t) →
    ∃ roots, selectRoots s (ts.map fun t => posOf (St.numRows n) t (rootIdx n' t)) acc = .ok (s, roots) := by
  intro ts
  induction ts with
  | nil => intro acc _; exact ⟨acc, rfl⟩
  | cons t ts ih =>
    intro acc hts
    obtain ⟨ht1, ht2⟩ := hts t (by simp)
    have hrt : rtOf n t (rootIdx n' t) = true := rtOf_true.2 ⟨ht1, ht2.symm⟩
    have hin : rootIdx n' t < n / 2 ^ t := by rw [← ht2]; exact Ram.root_in ht1
    obtain ⟨tt, path, -, -, g, -⟩ := readSiblings_ok h.num hn (fun q y _ hf => h.shape.kids q y hf)
      (fun q y p hp => (h.shape.bnd q y p hp).2) h.roots hin
    obtain ⟨np, hnp⟩ := Option.isSome_iff_exists.1 (h.shape.root _ _ hrt)
    have hnl := (h.shape.bnd _ _ _ hnp).2
    obtain ⟨x, hx⟩ : ∃ x, s.ext[np]? = some x := ⟨_, List.getElem?_eq_getElem hnl⟩
    obtain ⟨roots, hr⟩ := ih ({ e := { node := some np, sib := some np, pos := posOf (St.numRows n) t (rootIdx n' t) }, up := [] } :: acc)
      (fun t' ht' => hts t' (by simp [ht']))
    refine ⟨roots, ?_⟩
    rw [List.map_cons, selectRoots, g, ok_bind]
    simp only
    rw [holder_root hrt, hnp, deref_ok hx, ok_bind]
    simp only
    rw [vecGet_ok hx, ok_bind, store_ok hnl, ok_bind]
    have : s.ext.set np { x with n0 := x.n0, n1 := x.n1 } = s.ext := set_same hx
    rw [this]
    exact hr

/-- Removing whole trees from the end changes no object. -/
theorem finalizeRemove_same {s s' : Pollard H} {n n' t : ℕ} {A : Addr} {c : ℕ → ℕ → H} (h : PH s n A c) (hn : n ≤ 2 ^ 62)
    (hd : 2 ^ t ∣ n') (hle : n' ≤ n) (hlt : n < n' + 2 ^ t) (hf : finalizeRemove s n' = .ok s') : s'.ext = s.ext := by
  unfold finalizeRemove at hf
  simp only [h.num] at hf
  obtain ⟨m, -, hf⟩ := bind_eq_ok.1 hf
  rw [rootPositionsOf_eq hn hle, ok_bind, Ram.treeRows_eq hn hle, ← List.map_reverse] at hf
  have h' : PH { s with posmap := m } n A c := ⟨h.num, h.shape, h.hashed, h.roots, h.pos⟩
  obtain ⟨roots, g⟩ := selectRoots_same (n' := n') h' hn (treeRows n' 64).reverse [] (fun t ht =>
    Tail.trees hd hle hlt (mem_treeRows.1 (List.mem_reverse.1 ht)).2)
  simp only [← h.num] at g hf
  have g' : selectRoots { s with posmap := m } _ [] = _ := g
  rw [g', ok_bind] at hf
  obtain rfl := Except.ok.inj hf
  rfl

end Pol
end Utreexo
