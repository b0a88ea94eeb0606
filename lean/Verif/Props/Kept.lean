import Verif.Props.Later
import Verif.Props.Record
import Verif.Spec.Kept
import Verif.Proof.PolTight

/-!
# C81: a pollard keeps exactly the hashes that its remembered leaves need
-/

set_option linter.unusedSectionVars false

namespace Utreexo
open Spec Equiv Pol

variable {H : Type} [DecidableEq H] [HashOps H]

/-- The histories of a pollard that verifies only what it is about to delete: between two blocks it may check any number of proofs,
and the block deletes the targets of all those that it accepts. Leaves come into its memory by being added with the remember flag (and
through proofs it rejects, see `Held`). -/
inductive Tidy : RamForest H → List (UndoBatch H × RamForest H) → Pollard H → Prop
  | empty : Tidy (Ram.mk 0) [] (mk 0)
  | restored {F : RamForest H} {st : List (UndoBatch H × RamForest H)} {rs : List H} {p : Pollard H} :
      Ram.Run F st → Ram.roots F = .ok rs → fromRoots rs F.numLeaves = .ok p → Tidy F st p
  | later {F F' : RamForest H} {st : List (UndoBatch H × RamForest H)} {u : UndoBatch H} {p p1 p2 : Pollard H} {L : List H}
      {V : H → Prop} {D : List ℕ} {leaves leaves' : List (Leaf H)} :
      Tidy F st p → Ram.Represents F L → Verifies L p V p1 → Ram.Valid L (leaves.map Prod.fst) D →
      leaves'.map Prod.fst = leaves.map Prod.fst → Deletable L V p1 D → (∀ h, V h → ∃ t ∈ D, L[t]? = some h) →
      Ram.modify F leaves D = .ok (true, some u, F') → modify p1 leaves' D = .ok (true, p2) → Tidy F' ((u, F) :: st) p2
  | refused {F : RamForest H} {st : List (UndoBatch H × RamForest H)} {p p' : Pollard H} {proof : BatchProof H} {hs : List H} :
      Tidy F st p → verify p proof hs = .ok (false, p') → Tidy F st p'
  | prune {F : RamForest H} {st : List (UndoBatch H × RamForest H)} {p p' : Pollard H} :
      Tidy F st p → pruneAll p = .ok p' → Tidy F st p'
  | rejected {F : RamForest H} {st : List (UndoBatch H × RamForest H)} {p p' : Pollard H} {leaves : List (Leaf H)}
      {targets : List ℕ} {b : Bool} : Tidy F st p →
      ¬ (targets.Pairwise (· < ·) ∧ ∀ t ∈ targets, t < p.numLeaves) → modify p leaves targets = .ok (b, p') → Tidy F st p'
  | reopen {F F' : RamForest H} {st st' : List (UndoBatch H × RamForest H)} {p : Pollard H} : Tidy F st p →
      Ram.reopen F = .ok F' → st' <+: st → (∀ e ∈ st', e.2.numLeaves ≤ 2 ^ Nat.size F.numLeaves) → Tidy F' st' p
  | copied {F : RamForest H} {st : List (UndoBatch H × RamForest H)} {p p' : Pollard H} {leaves : List (Leaf H)} :
      Tidy F st p → Apart p leaves → modify p leaves [] = .ok (true, p') →
      Tidy F st (copyAfterModify leaves [] p p')

namespace Pol

theorem _root_.Utreexo.Tidy.sync {F : RamForest H} {st : List (UndoBatch H × RamForest H)} {p : Pollard H} (h : Tidy F st p) :
    Sync F st p := by
  induction h with
  | empty => exact .empty
  | restored h1 h2 h3 => exact .restored h1 h2 h3
  | later _ h1 h2 h3 h4 h5 _ h6 h7 ih => exact .later ih h1 h2 h3 h4 h5 h6 h7
  | refused _ h2 ih =>
    obtain ⟨L, A, hI, -⟩ := ih.sparse
    exact .verify ih hI.rep h2 (by simp)
  | prune _ h1 ih => exact .prune ih h1
  | rejected _ h1 h2 ih => exact .rejected ih h1 h2
  | reopen _ h1 h2 h3 ih => exact .reopen ih h1 h2 h3
  | copied _ h1 h2 ih => exact .copied ih h1 h2

theorem SyncInv.tight_verifies {F : RamForest H} {st : List (UndoBatch H × RamForest H)} {p p' : Pollard H} {L : List H} {A : Addr}
    {V : H → Prop} {D : List ℕ} (hI : SyncInv F st p L A) (hT : TightBut L.length A D) (hV : Verifies L p V p')
    (hD : ∀ h, V h → ∃ t ∈ D, L[t]? = some h) : ∃ A', SyncInv F st p' L A' ∧ TightBut L.length A' D := by
  induction hV with
  | none => exact ⟨A, hI, hT⟩
  | @next p1 p2 V proof hs b _ hver hnc ih =>
    obtain ⟨A, hI, hT⟩ := ih (fun h hh => hD h (.inl hh))
    rcases verify_ok hI.inv hI.len proof hs with ⟨e, -⟩ | ⟨e, -⟩ | ⟨e, -⟩ | ⟨s', e, -, -, hs', hk, -⟩ | ⟨s', A1, e, -, ha, -⟩ <;> rw [e] at hver
    · obtain ⟨-, rfl⟩ : false = b ∧ p1 = p2 := by simpa using hver
      exact ⟨A, hI, hT⟩
    · obtain ⟨-, rfl⟩ : true = b ∧ p1 = p2 := by simpa using hver
      exact ⟨A, hI, hT⟩
    · simp at hver
    · obtain ⟨-, rfl⟩ : false = b ∧ s' = p2 := by simpa using hver
      exact ⟨A, ⟨hI.run, hI.rep, hI.len, hs'⟩, hT⟩
    · obtain ⟨rfl, rfl⟩ : true = b ∧ s' = p2 := by simpa using hver
      have nc : ¬ Coll s'.ext A1 L.length (leafFn HashOps.zero L) := by rw [coll_iff ha.ph hI.len]; exact hnc rfl
      obtain ⟨h1, h2⟩ := ha.sound hI.inv nc
      refine ⟨A1, ⟨hI.run, hI.rep, hI.len, h1⟩, ha.tight ?_ hT⟩
      intro t ht
      have hget : L[t]? = some (leafFn HashOps.zero L t) := leafFn_get.2 ⟨ha.sane.lt t ht, rfl⟩
      obtain ⟨t', ht', e'⟩ := hD _ (.inr ⟨rfl, by rw [h2]; exact List.mem_map_of_mem ht⟩)
      rwa [get_inj hI.nodup hget e']

/-- The pollard of a tidy history has no superfluous object above the bottom row. -/
theorem _root_.Utreexo.Tidy.tight {F : RamForest H} {st : List (UndoBatch H × RamForest H)} {p : Pollard H} (h : Tidy F st p) :
    ∃ L A, SyncInv F st p L A ∧ Tight L.length A := by
  induction h with
  | empty =>
    obtain ⟨A, hA⟩ := mk_ok (H := H) (leafFn HashOps.zero [])
    exact ⟨[], A, ⟨Ram.Run.empty, Ram.mk_inv.represents (by omega), by simp, hA⟩, fun q x hx => by simp at hx⟩
  | @restored F st rs p hrun hrs hp =>
    obtain ⟨L, hL, -, hlen⟩ := C16_represents F st hrun
    rw [hL.roots] at hrs
    obtain rfl := Except.ok.inj hrs
    rw [hL.count] at hp
    obtain ⟨s, e1, e2, -⟩ := fromRoots_ok hlen (leafFn HashOps.zero L)
    rw [e1] at hp
    obtain rfl := Except.ok.inj hp
    refine ⟨L, _, ⟨hrun, hL, hlen, e2⟩, tight_bare ?_⟩
    intro r i hr
    unfold rootAddr
    rw [hr]; rfl
  | @later F F' st u p p1 p2 L V D leaves leaves' _ hrep hver hv hl hd hVD hm1 hm2 ih =>
    obtain ⟨L0, A, hI, hT⟩ := ih
    obtain rfl := hrep.unique hI.rep
    obtain ⟨A1, hS, hT1⟩ := hI.tight_verifies (hT.but D) hver hVD
    obtain ⟨u', G, q, L', A', k1, k2, k3, -, k5⟩ := block_step hS hv hl (fun _ => hI.ready hver hS hv.bound hd)
    rw [k1] at hm1
    rw [k2] at hm2
    simp only [Except.ok.injEq, Prod.mk.injEq, Option.some.injEq, true_and] at hm1 hm2
    obtain ⟨rfl, rfl⟩ := hm1
    subst hm2
    exact ⟨L', A', k3, k5.tight hT1⟩
  | @refused F st p p' proof hs _ hver ih =>
    obtain ⟨L, A, hI, hT⟩ := ih
    obtain ⟨A', h1, h2⟩ := hI.tight_verifies (D := []) (hT.but []) (.next .none hver (by simp)) (by
      rintro h (h1 | h1)
      · exact h1.elim
      · simp at h1)
    exact ⟨L, A', h1, fun s x hx => (h2 s x hx).resolve_right (by simp)⟩
  | @prune F st p p' _ hp ih =>
    obtain ⟨L, A, hI, -⟩ := ih
    obtain ⟨s', e, h1, -⟩ := pruneAll_ok hI.inv hI.len
    rw [e] at hp
    obtain rfl := Except.ok.inj hp
    refine ⟨L, _, ⟨hI.run, hI.rep, hI.len, h1⟩, tight_bare ?_⟩
    intro r i hr
    unfold rootsOnly
    rw [hr]; rfl
  | @rejected F st p p' leaves targets b _ hns hm ih =>
    rw [modify_insane _ _ _ hns] at hm
    obtain ⟨-, rfl⟩ : false = b ∧ p = p' := by simpa using hm
    exact ih
  | @reopen F F' st st' p _ ho hp hb ih =>
    obtain ⟨L, A, hI, hT⟩ := ih
    have hrun := Ram.Run.reopen hI.run ho hp hb
    obtain ⟨n, f, h1, h2, -⟩ := hI.run.inv
    obtain ⟨s', k1, k2, k3⟩ := Ram.reopen_ok h1 h2
    rw [k1] at ho
    obtain rfl := Except.ok.inj ho
    have e := hI.rep.unique (h1.represents h2)
    refine ⟨L, A, ⟨hrun, ?_, hI.len, hI.inv⟩, hT⟩
    rw [e]
    exact k2.represents h2
  | @copied F st p p' leaves _ hk hm ih =>
    obtain ⟨L, A, hI, hT⟩ := ih
    obtain ⟨g1, g2⟩ := hI.copied hk hm
    exact ⟨L, A, g1, hT⟩

theorem addr_eq {F F' : RamForest H} {st st' : List (UndoBatch H × RamForest H)} {p : Pollard H} {L : List H} {A B : Addr}
    (h : SyncInv F st p L A) (h' : SyncInv F' st' p L B) : A = B := by
  exact h.inv.addr_unique h'.inv h.len

/-- What is known of the memory of a pollard with a tidy history. -/
theorem _root_.Utreexo.Tidy.inv {F : RamForest H} {st st' : List (UndoBatch H × RamForest H)} {p : Pollard H} {Q : H → Prop}
    (h : Tidy F st' p) (hQ : Held F st p Q) {L : List H} (hL : Ram.Represents F L) :
    ∃ A, HInv F st p L A Q ∧ Sparse p.ext L.length A ∧ Tight L.length A := by
  obtain ⟨L1, A1, h1, h2⟩ := h.tight
  obtain ⟨L2, A2, h3, h4⟩ := h.sync.sparse
  obtain ⟨L3, A3, h5⟩ := hQ.inv
  obtain rfl := hL.unique h1.rep
  obtain rfl := hL.unique h3.rep
  obtain rfl := hL.unique h5.sync.rep
  obtain rfl := addr_eq h1 h3
  obtain rfl := addr_eq h1 h5.sync
  exact ⟨_, h5, h4, h2⟩

/-- The flags below a node, in terms of the leaves. -/
theorem HInv.below {F : RamForest H} {st : List (UndoBatch H × RamForest H)} {p : Pollard H} {L : List H} {A : Addr} {Q : H → Prop}
    (h : HInv F st p L A Q) {r i : ℕ} (hi : InForest L.length r i) :
    (∃ t, t / 2 ^ r = i ∧ Flag p.ext (rtOf L.length) A t) ↔ ∃ (t : ℕ) (a : H), L[t]? = some a ∧ Q a ∧ t / 2 ^ r = i := by
  constructor
  · rintro ⟨t, e, hf⟩
    have ht : t < L.length := by
      subst e
      have h1 : (t / 2 ^ r + 1) * 2 ^ r ≤ L.length := hi
      have h2 := Nat.lt_div_mul_add (a := t) (Nat.two_pow_pos r)
      rw [Nat.add_mul, Nat.one_mul] at h1
      omega
    obtain ⟨a, ha⟩ : ∃ a, L[t]? = some a := ⟨_, List.getElem?_eq_getElem ht⟩
    exact ⟨t, a, ha, (h.flag t a ha).1 hf, e⟩
  · rintro ⟨t, a, ha, hq, e⟩
    exact ⟨t, e, (h.flag t a ha).2 hq⟩

theorem sibling_in {n r i : ℕ} (h : InForest n (r + 1) (i / 2)) : InForest n r (i ^^^ 1) := by
  rw [inForest_iff] at h ⊢
  exact kid_in h (sb_div i)

theorem self_in {n r i : ℕ} (h : InForest n (r + 1) (i / 2)) : InForest n r i := by
  rw [inForest_iff] at h ⊢
  exact kid_in h rfl

/-- A block with the forest's proof is tidy. -/
theorem _root_.Utreexo.Tidy.block {F F' : RamForest H} {st : List (UndoBatch H × RamForest H)} {u : UndoBatch H} {p p1 p2 : Pollard H}
    {L : List H} {proof : BatchProof H} {hs : List H} {leaves leaves' : List (Leaf H)}
    (h : Tidy F st p) (hrep : Ram.Represents F L) (hv : Ram.Valid L (leaves.map Prod.fst) proof.sorted)
    (hsrt : proof.targets = [] → proof.sorted = []) (hl : leaves'.map Prod.fst = leaves.map Prod.fst)
    (hver : Pol.verify p proof hs = .ok (true, p1)) (hnc : ¬ Collision p1 L)
    (hm1 : Ram.modify F leaves proof.sorted = .ok (true, some u, F')) (hm2 : modify p1 leaves' proof.sorted = .ok (true, p2)) :
    Tidy F' ((u, F) :: st) p2 := by
  obtain ⟨L0, A, hI, -⟩ := h.tight
  obtain rfl := hrep.unique hI.rep
  obtain ⟨h1, h2, hmem⟩ := hI.deletable hsrt hver hnc
  refine .later h hrep h1 hv hl h2 ?_ hm1 hm2
  rintro x (hx | hx)
  · exact hx.elim
  · exact (hmem x).1 hx.2

theorem tidy_all : ∀ (bs : List (Block H)) (S L : List H) (F : RamForest H) (st : List (UndoBatch H × RamForest H)) (p : Pollard H),
    Tidy F st p → Ram.Represents F L → L.Perm S → ValidBlocks S bs →
    ∃ F' st' p', play bs F p = .ok (F', p') ∧ Tidy F' st' p' := by
  intro bs
  induction bs with
  | nil => intro S L F st p h hL hS _; exact ⟨F, st, p, rfl, h⟩
  | cons b bs ih =>
    rintro S L F st p h hL hS ⟨h1, h2, h3, h4, h5, h6, h7⟩
    obtain ⟨F1, u, p1, L1, e1, -, e3, e4, proof, hs, p2, ha⟩ := play_step h.sync hL hS h1 h2 h3 h4 h5 h6
    have hT := Tidy.block h hL ha.valid ha.nil (by simp [Function.comp_def]) ha.ver ha.coll ha.forest ha.pollard
    obtain ⟨F', st', p', g1, g2⟩ := ih _ _ _ _ _ hT e3 e4 h7
    refine ⟨F', st', p', ?_, g2⟩
    rw [play, e1, ok_bind]; exact g1

end Pol

/-! ## C81 -/

/-- `CountNodes` after every history: the number of positions of the forest that `Read` finds a hash for. -/
theorem C81_count (F : RamForest H) (st : List (UndoBatch H × RamForest H)) (p : Pollard H) (h : Sync F st p) (L : List H)
    (hL : Ram.Represents F L) :
    countNodes p = ((List.range 64).map fun r => (List.range (L.length / 2 ^ r)).countP fun i =>
      decide (Pol.read p (at' L r i) = .ok (some (node L r i)))).sum := by
  obtain ⟨L0, A, hI, -⟩ := h.sparse
  obtain rfl := hL.unique hI.rep
  rw [hI.inv.ph.count_eq hI.len]
  congr 1
  apply List.map_congr_left
  intro r _
  apply List.countP_congr
  intro i hi
  rw [hI.inv.read_at hI.len (List.mem_range.1 hi)]
  cases A r i <;> simp

/-- C81: what a pollard with a tidy history has, if `Q` are the leaves it remembers. All roots; in the rows above the leaves exactly
the nodes whose sibling is above a remembered leaf; every neighbour of a remembered leaf; and no leaf unless it or its neighbour is
remembered. -/
theorem C81_kept (F : RamForest H) (st st' : List (UndoBatch H × RamForest H)) (p : Pollard H) (Q : H → Prop) (h : Held F st p Q)
    (ht : Tidy F st' p) (L : List H) (hL : Ram.Represents F L) (r i : ℕ) (hi : InForest L.length r i) :
    (¬ InForest L.length (r + 1) (i / 2) → Pol.read p (at' L r i) = .ok (some (node L r i))) ∧
    (InForest L.length (r + 1) (i / 2) →
      ((∃ (t : ℕ) (a : H), L[t]? = some a ∧ Q a ∧ t / 2 ^ r = i ^^^ 1) → Pol.read p (at' L r i) = .ok (some (node L r i))) ∧
      ((¬ ∃ (t : ℕ) (a : H), L[t]? = some a ∧ Q a ∧ (t / 2 ^ r = i ^^^ 1 ∨ (r = 0 ∧ t = i))) → Pol.read p (at' L r i) = .ok none)) := by
  obtain ⟨A, hI, hs, hT⟩ := ht.inv h hL
  rw [hI.sync.inv.read_at hI.sync.len (inForest_iff.1 hi)]
  have yes : (A r i).isSome → (Except.ok ((A r i).map fun _ => node L r i) : Res (Option H)) = .ok (some (node L r i)) := by
    intro hA
    obtain ⟨a, ha⟩ := Option.isSome_iff_exists.1 hA
    rw [ha]; rfl
  constructor
  · intro hroot
    apply yes
    apply hI.sync.inv.ph.shape.root
    rw [rtOf_iff (inForest_iff.1 hi)]
    rw [inForest_iff] at hroot
    exact hroot
  · intro hin
    have hin' := inForest_iff.1 hin
    constructor
    · intro hq
      apply yes
      rw [← hI.below (sibling_in hin)] at hq
      have := kidc_up hI.sync.inv.ph.shape (c := i ^^^ 1) hin' (sb_div i) ((hs.below (inForest_iff.1 (sibling_in hin))).2 hq)
      rwa [sb_sb] at this
    · intro hq
      have hno : A r i = none := by
        by_contra hA
        apply hq
        have hA : (A r i).isSome := Option.isSome_iff_ne_none.2 hA
        rcases Nat.eq_zero_or_pos r with rfl | hr
        · have hk : kidc p.ext (rtOf L.length) A 1 (i / 2) = true := by
            simp only [kidc, Bool.or_eq_true]
            rcases Nat.mod_two_eq_zero_or_one i with e | e
            · left; rwa [show 2 * (i / 2) = i by omega]
            · right; rwa [show 2 * (i / 2) + 1 = i by omega]
          obtain ⟨c, hc, hf⟩ := hs.step (q := 0) hin' hk
          have hcL : c < L.length := by
            have := kid_in hin' hc
            simpa using this
          obtain ⟨a, ha⟩ : ∃ a, L[c]? = some a := ⟨_, List.getElem?_eq_getElem hcL⟩
          refine ⟨c, a, ha, (hI.flag c a ha).1 hf, ?_⟩
          have := xor_one_cases i
          rw [pow_zero, Nat.div_one]
          split at this <;> omega
        · have hb := (hT.iff hs hr hin').1 hA
          rw [hI.below (sibling_in hin)] at hb
          obtain ⟨t, a, h1, h2, h3⟩ := hb
          exact ⟨t, a, h1, h2, .inl h3⟩
      rw [hno]; rfl

/-- C81 with the memo of C30, which is computed from the lists of leaves alone: it says for every position of the forest what `Read`
returns, and how many nodes `CountNodes` counts. -/
theorem C81_reads (F : RamForest H) (st st' : List (UndoBatch H × RamForest H)) (p : Pollard H) (m : Memo H) (h : Recorded F st p m)
    (ht : Tidy F st' p) (L : List H) (hL : Ram.Represents F L) :
    (∀ r i, InForest L.length r i → Pol.read p (at' L r i) = .ok (if m.keeps L r i then some (node L r i) else none)) ∧
    countNodes p = ((List.range 64).map fun r => (List.range (L.length / 2 ^ r)).countP (m.keeps L r)).sum := by
  have key : ∀ r i, InForest L.length r i → Pol.read p (at' L r i) = .ok (if m.keeps L r i then some (node L r i) else none) := by
    intro r i hi
    obtain ⟨k1, k2⟩ := C81_kept F st st' p _ h.held ht L hL r i hi
    unfold Memo.keeps
    by_cases hin : InForest L.length (r + 1) (i / 2)
    · have hlt : ¬ L.length < (i / 2 + 1) * 2 ^ (r + 1) := by
        unfold InForest at hin
        omega
      rw [if_neg hlt]
      rcases Nat.eq_zero_or_pos r with rfl | hr
      · rw [if_pos rfl]
        have hiL : i < L.length := by simpa using inForest_iff.1 hi
        have hg : L[i]? = some L[i] := List.getElem?_eq_getElem hiL
        have := (C30_record F st p m h L hL).2.1 i _ hg
        have h2 : at' L 0 i = i := by unfold at'; exact posOf_zero _ _
        have h3 : node L 0 i = L[i] := by
          unfold node
          rw [(leafFn_get.1 hg).2.symm]; rfl
        rw [h2, h3, hg, this]
        rfl
      · have hr0 : ¬ r = 0 := by omega
        rw [if_neg hr0]
        obtain ⟨k3, k4⟩ := k2 hin
        have e : (∃ (t : ℕ) (a : H), L[t]? = some a ∧ m.held a = true ∧ t / 2 ^ r = i ^^^ 1) ↔ m.below L r (i ^^^ 1) = true := by
          unfold Memo.below
          simp only [List.any_eq_true, Prod.exists, Bool.and_eq_true, beq_iff_eq]
          constructor
          · rintro ⟨t, a, h1, h2, h3⟩
            exact ⟨a, t, List.mem_zipIdx_iff_getElem?.2 h1, h2, h3⟩
          · rintro ⟨a, t, h1, h2, h3⟩
            exact ⟨t, a, List.mem_zipIdx_iff_getElem?.1 h1, h2, h3⟩
        cases hb : m.below L r (i ^^^ 1) with
        | true => exact k3 (e.2 hb)
        | false =>
          refine k4 ?_
          rintro ⟨t, a, h1, h2, h3 | h3⟩
          · have := e.1 ⟨t, a, h1, h2, h3⟩
            rw [hb] at this
            simp at this
          · omega
    · have hlt : L.length < (i / 2 + 1) * 2 ^ (r + 1) := by
        unfold InForest at hin
        omega
      rw [if_pos hlt]
      exact k1 hin
  refine ⟨key, ?_⟩
  rw [C81_count F st p h.held.sync L hL]
  congr 1
  apply List.map_congr_left
  intro r _
  apply List.countP_congr
  intro i hi
  rw [key r i (inForest_iff.2 (List.mem_range.1 hi))]
  cases m.keeps L r i <;> simp

/-- C81: the memory of a pollard with a tidy history: besides the roots at most `R + 1` nodes for every remembered leaf, where the
forest has fewer than `2 ^ (R + 1)` leaves. -/
theorem C81_memory (F : RamForest H) (st : List (UndoBatch H × RamForest H)) (p : Pollard H) (h : Tidy F st p) (R : ℕ)
    (hR : p.numLeaves < 2 ^ (R + 1)) :
    ∃ rs, Pol.roots p = .ok rs ∧ countNodes p ≤ rs.length + (R + 1) * numCachedLeaves p := by
  obtain ⟨L, A, hI, hT⟩ := h.tight
  obtain ⟨L2, A2, h3, h4⟩ := h.sync.sparse
  obtain rfl := hI.rep.unique h3.rep
  obtain rfl := addr_eq hI h3
  have hn : p.numLeaves = L.length := hI.inv.ph.num
  rw [hn] at hR
  obtain ⟨rs, e1, e2⟩ : ∃ rs, Pol.roots p = .ok rs ∧ rs.length = (rootCoords L.length).length := by
    have := hI.inv.roots_ok
    exact ⟨_, this, by unfold merkleRoots rootCoords; simp⟩
  exact ⟨rs, e1, by rw [e2]; exact hI.inv.ph.count_tight hI.len h4 hT hR⟩

/-- C81 for every history of valid blocks, each with the forest's proof of its deletions: what `Read` returns for any position and
what `CountNodes` counts is a computable function of the blocks alone. -/
theorem C81_history (bs : List (Block H)) (hv : ValidBlocks [] bs) :
    ∃ F p, play bs (Ram.mk 0) (Pol.mk 0) = .ok (F, p) ∧ Ram.Represents F (bs.foldl memoBlock ([], Memo.empty)).1 ∧
      (∀ r i, InForest (bs.foldl memoBlock ([], Memo.empty)).1.length r i →
        Pol.read p (at' (bs.foldl memoBlock ([], Memo.empty)).1 r i) =
          .ok (if (bs.foldl memoBlock ([], Memo.empty)).2.keeps (bs.foldl memoBlock ([], Memo.empty)).1 r i then
            some (node (bs.foldl memoBlock ([], Memo.empty)).1 r i) else none)) ∧
      countNodes p = ((List.range 64).map fun r => (List.range ((bs.foldl memoBlock ([], Memo.empty)).1.length / 2 ^ r)).countP
        ((bs.foldl memoBlock ([], Memo.empty)).2.keeps (bs.foldl memoBlock ([], Memo.empty)).1 r)).sum := by
  have h0 : Ram.Represents (Ram.mk 0 : RamForest H) [] := Ram.mk_inv.represents (f := leafFn HashOps.zero []) (by omega)
  obtain ⟨F, st, p, e1, e2, e3⟩ := play_memo bs [] [] Memo.empty _ _ _ Recorded.empty h0 (List.Perm.refl _) hv
  obtain ⟨F', st', p', g1, g2⟩ := tidy_all bs [] [] _ _ _ Tidy.empty h0 (List.Perm.refl _) hv
  rw [e1] at g1
  obtain ⟨rfl, rfl⟩ : F = F' ∧ p = p' := by simpa using g1
  obtain ⟨k1, k2⟩ := C81_reads F st st' p _ e2 g2 _ e3
  exact ⟨F, p, e1, e3, k1, k2⟩

/-- C53 for a single remembered leaf of a pollard with a tidy history, exactly and in terms of the leaves remembered. Let the smallest
tree have height `k`. `Modify` without a proof of the leaf follows the forest if in each row from `k` on and above the leaves a
remembered leaf is below the sibling of the leaf's ancestor, and if the leaf can be read in case `k = 0`; otherwise it has undefined
behaviour. -/
theorem C53_tidy (F : RamForest H) (st st' : List (UndoBatch H × RamForest H)) (p : Pollard H) (Q : H → Prop)
    (h : Held F st p Q) (hT : Tidy F st' p) (L : List H) (hL : Ram.Represents F L) (leaves leaves' : List (Leaf H)) (t : ℕ)
    (hv : Ram.Valid L (leaves.map Prod.fst) [t]) (hl : leaves'.map Prod.fst = leaves.map Prod.fst)
    (hQ : ∃ a, L[t]? = some a ∧ Q a) (k : ℕ) (hk : 2 ^ k ∣ L.length) (hk' : ¬ 2 ^ (k + 1) ∣ L.length) :
    ((k = 0 → Pol.read p t ≠ .ok none) →
      (∀ r, k ≤ r → 0 < r → InForest L.length (r + 1) (t / 2 ^ (r + 1)) →
        ∃ (s : ℕ) (b : H), L[s]? = some b ∧ Q b ∧ s / 2 ^ r = t / 2 ^ r ^^^ 1) →
      ∃ u F' p' L' rs, Ram.modify F leaves [t] = .ok (true, some u, F') ∧ Pol.modify p leaves' [t] = .ok (true, p') ∧
        Ram.Represents F' L' ∧ Modified L (leaves.map Prod.fst) [t] L' ∧
        p'.numLeaves = F'.numLeaves ∧ Ram.roots F' = .ok rs ∧ Pol.roots p' = .ok rs ∧
        ∀ S : List H, S.Nodup → (∀ x, x ∈ S ↔ (Q x ∧ x ∈ survivors L [t]) ∨ (x, true) ∈ leaves') → numCachedLeaves p' = S.length) ∧
    (¬ ((k = 0 → Pol.read p t ≠ .ok none) ∧ ∀ r, k ≤ r → 0 < r → InForest L.length (r + 1) (t / 2 ^ (r + 1)) →
        ∃ (s : ℕ) (b : H), L[s]? = some b ∧ Q b ∧ s / 2 ^ r = t / 2 ^ r ^^^ 1) →
      (∃ u F', Ram.modify F leaves [t] = .ok (true, some u, F')) ∧ Pol.modify p leaves' [t] = .error .ub) := by
  obtain ⟨g1, g2⟩ := C53_single_exact F st p Q h L hL leaves leaves' t hv hl hQ k hk hk'
  have ht : t < L.length := hv.bound t (by simp)
  have h2 : at' L 0 (t / 2 ^ 0) = t := by rw [pow_zero, Nat.div_one]; unfold at'; exact posOf_zero _ _
  have hdd : ∀ r, t / 2 ^ r / 2 = t / 2 ^ (r + 1) := fun r => by rw [pow_succ, Nat.div_div_eq_div_mul]
  have key : ∀ r, 0 < r → InForest L.length r (t / 2 ^ r) →
      (Pol.read p (at' L r (t / 2 ^ r)) = .ok none ↔ InForest L.length (r + 1) (t / 2 ^ (r + 1)) ∧
        ¬ ∃ (s : ℕ) (b : H), L[s]? = some b ∧ Q b ∧ s / 2 ^ r = t / 2 ^ r ^^^ 1) := by
    intro r hr hin
    obtain ⟨k1, k2⟩ := C81_kept F st st' p Q h hT L hL r _ hin
    rw [hdd] at k1 k2
    constructor
    · intro hno
      have hi : InForest L.length (r + 1) (t / 2 ^ (r + 1)) := by
        by_contra hc
        rw [k1 hc] at hno
        simp at hno
      refine ⟨hi, fun hex => ?_⟩
      rw [(k2 hi).1 hex] at hno
      simp at hno
    · rintro ⟨hi, hex⟩
      refine (k2 hi).2 ?_
      rintro ⟨s, b, q1, q2, q3 | q3⟩
      · exact hex ⟨s, b, q1, q2, q3⟩
      · omega
  constructor
  · intro hz hall
    refine g1 ?_
    intro r hr hin
    rcases Nat.eq_zero_or_pos r with rfl | hr0
    · rw [h2]; exact hz (by omega)
    · rw [Ne, key r hr0 hin]
      rintro ⟨q1, q2⟩
      exact q2 (hall r hr hr0 q1)
  · intro hnot
    rw [not_and_or] at hnot
    rcases hnot with hz | hz
    · rw [Classical.not_imp, not_not] at hz
      obtain ⟨rfl, hz⟩ := hz
      exact g2 0 le_rfl (inForest_iff.2 (by simpa using ht)) (by rw [h2]; exact hz)
    · push Not at hz
      obtain ⟨r, hr, hr0, hin, hz⟩ := hz
      have hin0 : InForest L.length r (t / 2 ^ r) := self_in (by rw [hdd]; exact hin)
      refine g2 r hr hin0 ((key r hr0 hin0).2 ⟨hin, ?_⟩)
      rintro ⟨s, b, q1, q2, q3⟩
      exact hz s b q1 q2 q3

/-! ## Concrete cases -/

section Examples

attribute [local instance] toyOps

/-- Eight leaves of which two are remembered, two deletions and an addition. -/
def keptBlocks : List (Block ℕ) := [rememberSome 8 [0, 5], { adds := [(40, false, true)], dels := [12, 13] }]

/-- The hypotheses of `C81_history`, and what it says: the leaves, and the nodes kept in each row. -/
example : ValidBlocks [] keptBlocks ∧ (keptBlocks.foldl memoBlock ([], Memo.empty)).1 = [15, 16, 17, 18, 11, 14, 40] ∧
    (List.range 3).map (fun r => (List.range (7 / 2 ^ r)).filter
      ((keptBlocks.foldl memoBlock ([], Memo.empty)).2.keeps (keptBlocks.foldl memoBlock ([], Memo.empty)).1 r)) =
      [[0, 1, 5, 6], [1, 2], [0]] := by
  refine ⟨⟨by decide, by decide, by decide, by decide, by decide, by decide,
    by decide, by decide, by decide, by decide, by decide, by decide, trivial⟩, by decide +kernel, by decide +kernel⟩

/-- `CountNodes` counts these seven nodes. -/
example : toyAfter keptBlocks (fun _ p => return (countNodes p, numCachedLeaves p)) = .ok (7, 3) := by decide +kernel

/-- Without the condition on the leaves verified C81 is false: a pollard that verifies a leaf and does not delete it has the
ancestors of the leaf too, which no remembered leaf needs. Here that is one leaf of eight; the pollard has the nodes 0 of the rows 1
and 2. -/
theorem C81_loose : toyAfter [rememberSome 8 []] (fun F p => do
      let some pf ← Acc.prove Ram.vt F [11] | .error .exc
      let (b, p') ← Pol.verify p pf [11]
      return (b, numCachedLeaves p', countNodes p', (← (List.range 15).mapM fun x => Pol.read p' x).map Option.isSome)) =
    .ok (true, 1, 7, [true, true, false, false, false, false, false, false, true, true, false, false, true, true, true]) := by
  decide +kernel

/-- The hypotheses of `C53_tidy`: leaf 0 of 12 leaves, where the smallest tree has height 2. The pollard remembers leaf 5, which is
below the sibling of the ancestor in row 2; or it does not, and then the deletion has undefined behaviour. -/
example : toyAfter [rememberSome 12 [0, 5]] (fun _ p => return ((Pol.modify p [] [0]).map Prod.fst)) = .ok (.ok true) ∧
    toyAfter [rememberSome 12 [0, 3]] (fun _ p => return ((Pol.modify p [] [0]).map Prod.fst)) = .ok (.error .ub) := by
  decide +kernel

end Examples

end Utreexo
