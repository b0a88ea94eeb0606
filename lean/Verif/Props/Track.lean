import Verif.Props.Pollard

/-!
# What a pollard can prove: C30 and C39

`Track F st p K R` are the histories of `Sync` together with two sets of hashes: `K`, the leaves the
pollard has been told to remember and has not deleted since, and `R`, those of them that are known
to stay provable.
-/

set_option linter.unusedSectionVars false

namespace Utreexo
open Spec Equiv

variable {H : Type} [DecidableEq H] [HashOps H]

namespace Pol

/-- In a forest holding `L` the sibling of the leaf `h`, if it has one, is in `R`. -/
def SibIn (L : List H) (R : H → Prop) (h : H) : Prop :=
  ∀ (i : ℕ) (g : H), L[i]? = some h → L[i ^^^ 1]? = some g → R g

/-- The histories of a forest and a pollard with the remembered leaves `K` and those leaves `R` of
them whose proofs are guaranteed.

A leaf comes into both sets when it is added with the remember flag or verified. It leaves both when
it is deleted. It leaves `R` when the pollard is pruned, and in a block when its sibling before the
block, or its sibling after the removal, is not in `R` at that time. -/
inductive Track : RamForest H → List (UndoBatch H × RamForest H) → Pollard H → (H → Prop) → (H → Prop) → Prop
  | empty : Track (Ram.mk 0) [] (mk 0) (fun _ => False) (fun _ => False)
  | restored {F : RamForest H} {st : List (UndoBatch H × RamForest H)} {rs : List H} {p : Pollard H} :
      Ram.Run F st → Ram.roots F = .ok rs → fromRoots rs F.numLeaves = .ok p → Track F st p (fun _ => False) (fun _ => False)
  | later {F F' : RamForest H} {st : List (UndoBatch H × RamForest H)} {u : UndoBatch H} {p p1 p2 : Pollard H} {L L' : List H}
      {V : H → Prop} {D : List ℕ} {leaves leaves' : List (Leaf H)} {K R : H → Prop} :
      Track F st p1 K R → Sync F st p → Ram.Represents F L → Verifies L p V p1 → Ram.Valid L (leaves.map Prod.fst) D →
      leaves'.map Prod.fst = leaves.map Prod.fst → Deletable L V p1 D →
      Ram.modify F leaves D = .ok (true, some u, F') → modify p1 leaves' D = .ok (true, p2) → Ram.Represents F' L' →
      Track F' ((u, F) :: st) p2
        (fun h => (K h ∧ h ∈ survivors L D) ∨ (h, true) ∈ leaves')
        (fun h => (R h ∧ h ∈ survivors L D ∧ SibIn L R h ∧ SibIn (L'.take (L.length - D.length)) R h) ∨ (h, true) ∈ leaves')
  | verify {F : RamForest H} {st : List (UndoBatch H × RamForest H)} {p p' : Pollard H} {L : List H}
      {proof : BatchProof H} {hs : List H} {b : Bool} {K R : H → Prop} :
      Track F st p K R → Ram.Represents F L → verify p proof hs = .ok (b, p') → (b = true → ¬ Collision p' L) →
      Track F st p' (fun h => K h ∨ (b = true ∧ h ∈ hs)) (fun h => R h ∨ (b = true ∧ h ∈ hs))
  | prune {F : RamForest H} {st : List (UndoBatch H × RamForest H)} {p p' : Pollard H} {K R : H → Prop} :
      Track F st p K R → pruneAll p = .ok p' → Track F st p' K (fun _ => False)
  | rejected {F : RamForest H} {st : List (UndoBatch H × RamForest H)} {p p' : Pollard H} {leaves : List (Leaf H)}
      {targets : List ℕ} {b : Bool} {K R : H → Prop} : Track F st p K R →
      ¬ (targets.Pairwise (· < ·) ∧ ∀ t ∈ targets, t < p.numLeaves) →
      modify p leaves targets = .ok (b, p') → Track F st p' K R
  | reopen {F F' : RamForest H} {st st' : List (UndoBatch H × RamForest H)} {p : Pollard H} {K R : H → Prop} : Track F st p K R →
      Ram.reopen F = .ok F' → st' <+: st → (∀ e ∈ st', e.2.numLeaves ≤ 2 ^ Nat.size F.numLeaves) → Track F' st' p K R
  | copied {F : RamForest H} {st : List (UndoBatch H × RamForest H)} {p p' : Pollard H} {leaves : List (Leaf H)} {K R : H → Prop} :
      Track F st p K R → Apart p leaves → modify p leaves [] = .ok (true, p') →
      Track F st (copyAfterModify leaves [] p p') K R

/-- Such a history is one of `Sync`. -/
theorem Track.sync {F : RamForest H} {st : List (UndoBatch H × RamForest H)} {p : Pollard H} {K R : H → Prop}
    (h : Track F st p K R) : Sync F st p := by
  induction h with
  | empty => exact .empty
  | restored h1 h2 h3 => exact .restored h1 h2 h3
  | later _ h0 h1 h2 h3 h4 h5 h6 h7 _ _ => exact .later h0 h1 h2 h3 h4 h5 h6 h7
  | verify _ h1 h2 h3 ih => exact .verify ih h1 h2 h3
  | prune _ h1 ih => exact .prune ih h1
  | rejected _ h1 h2 ih => exact .rejected ih h1 h2
  | reopen _ h1 h2 h3 ih => exact .reopen ih h1 h2 h3
  | copied _ h1 h2 ih => exact .copied ih h1 h2

/-! ## The invariant -/

/-- The pollard knows exactly `K`, and the leaves in `R` are remembered at their positions. -/
structure TInv (F : RamForest H) (st : List (UndoBatch H × RamForest H)) (p : Pollard H) (L : List H) (A : Addr)
    (K R : H → Prop) : Prop where
  sync : SyncInv F st p L A
  dom : ∀ h, (PosMap.find p.posmap h).isSome ↔ K h
  sub : ∀ h, K h → h ∈ L
  rem : ∀ h, R h → ∃ i, L[i]? = some h ∧ PosMap.find p.posmap h = some i ∧ Flag p.ext (rtOf L.length) A i

theorem mem_survivors {L : List H} {D : List ℕ} {h : H} : h ∈ survivors L D ↔ ∃ i, L[i]? = some h ∧ i ∉ D := by
  unfold survivors
  rw [List.mem_map]
  constructor
  · rintro ⟨⟨x, i⟩, h1, rfl⟩
    rw [List.mem_filter] at h1
    refine ⟨i, List.mem_zipIdx_iff_getElem?.1 h1.1, ?_⟩
    simpa using h1.2
  · rintro ⟨i, h1, h2⟩
    refine ⟨(h, i), List.mem_filter.2 ⟨List.mem_zipIdx_iff_getElem?.2 h1, by simpa using h2⟩, rfl⟩

theorem get_inj {L : List H} (hnd : L.Nodup) {i j : ℕ} {h : H} (h1 : L[i]? = some h) (h2 : L[j]? = some h) : i = j := by
  obtain ⟨b1, c1⟩ := List.getElem?_eq_some_iff.1 h1
  obtain ⟨b2, c2⟩ := List.getElem?_eq_some_iff.1 h2
  exact (List.Nodup.getElem_inj_iff hnd).1 (c1.trans c2.symm)

theorem SyncInv.nodup {F : RamForest H} {st : List (UndoBatch H × RamForest H)} {p : Pollard H} {L : List H} {A : Addr}
    (h : SyncInv F st p L A) : L.Nodup := by
  obtain ⟨L1, q1, q2, -⟩ := C16_represents F st h.run
  obtain rfl := h.rep.unique q1
  exact q2

theorem find_foldl : ∀ (es : List (H × ℕ)) (m : PosMap H),
    (∀ k, (∀ e ∈ es, e.1 ≠ k) → PosMap.find (es.foldl (fun m e => PosMap.insert m e.1 e.2) m) k = PosMap.find m k) ∧
    (∀ k v, (∃ e ∈ es, e.1 = k) → (∀ e ∈ es, e.1 = k → e.2 = v) →
      PosMap.find (es.foldl (fun m e => PosMap.insert m e.1 e.2) m) k = some v) := by
  intro es
  induction es with
  | nil => intro m; exact ⟨fun _ _ => rfl, by simp⟩
  | cons e es ih =>
    intro m
    obtain ⟨i1, i2⟩ := ih (PosMap.insert m e.1 e.2)
    constructor
    · intro k hk
      rw [List.foldl_cons, i1 k (fun e' he' => hk e' (by simp [he'])), PosMap.find_insert, if_neg]
      exact fun hc => hk e (by simp) hc.symm
    · intro k v hex hall
      rw [List.foldl_cons]
      by_cases h : ∃ e' ∈ es, e'.1 = k
      · exact i2 k v h (fun e' he' => hall e' (by simp [he']))
      · rw [i1 k (fun e' he' hc => h ⟨e', he', hc⟩), PosMap.find_insert]
        obtain ⟨e', he', h1⟩ := hex
        rcases List.mem_cons.1 he' with rfl | he'
        · rw [if_pos h1.symm, hall _ (by simp) h1]
        · exact absurd ⟨e', he', h1⟩ h

/-- Accepted verification. -/
theorem TInv.accepted {F : RamForest H} {st : List (UndoBatch H × RamForest H)} {p p' : Pollard H} {L : List H} {A A1 : Addr}
    {K R : H → Prop} {D : List ℕ} {hs : List H} (h : TInv F st p L A K R)
    (ha : Accepted p p' L.length (leafFn HashOps.zero L) A A1 D hs) (nc : ¬ Coll p'.ext A1 L.length (leafFn HashOps.zero L)) :
    TInv F st p' L A1 (fun x => K x ∨ x ∈ hs) (fun x => R x ∨ x ∈ hs) ∧ ∀ x, x ∈ hs ↔ ∃ t ∈ D, L[t]? = some x := by
  obtain ⟨hinv, hhs⟩ := ha.sound h.sync.inv nc
  have hnd := h.sync.nodup
  have hmem : ∀ x, x ∈ hs ↔ ∃ t ∈ D, L[t]? = some x := by
    intro x
    rw [hhs, List.mem_map]
    constructor
    · rintro ⟨t, ht, rfl⟩
      exact ⟨t, ht, leafFn_get.2 ⟨ha.sane.lt t ht, rfl⟩⟩
    · rintro ⟨t, ht, e⟩
      exact ⟨t, ht, (leafFn_get.1 e).2⟩
  have hz : hs.zip D = D.map fun t => (leafFn HashOps.zero L t, t) := by
    rw [hhs]
    have : ∀ (l : List ℕ) (f : ℕ → H), (l.map f).zip l = l.map fun t => (f t, t) := by
      intro l f
      induction l with
      | nil => rfl
      | cons t l ih => simp [ih]
    exact this _ _
  have hpm := ha.posmap
  rw [hz] at hpm
  obtain ⟨i1, i2⟩ := find_foldl (D.map fun t => (leafFn HashOps.zero L t, t)) p.posmap
  rw [← hpm] at i1 i2
  have hold : ∀ x, x ∉ hs → PosMap.find p'.posmap x = PosMap.find p.posmap x := by
    intro x hx
    apply i1
    intro e he hc
    obtain ⟨t, ht, rfl⟩ := List.mem_map.1 he
    exact hx ((hmem x).2 ⟨t, ht, leafFn_get.2 ⟨ha.sane.lt t ht, hc⟩⟩)
  have hnew : ∀ t ∈ D, ∀ x, L[t]? = some x → PosMap.find p'.posmap x = some t := by
    intro t ht x e
    apply i2
    · exact ⟨_, List.mem_map_of_mem ht, (leafFn_get.1 e).2⟩
    · intro e' he' h1
      obtain ⟨t', ht', rfl⟩ := List.mem_map.1 he'
      exact get_inj hnd (leafFn_get.2 ⟨ha.sane.lt t' ht', h1⟩) e
  refine ⟨⟨⟨h.sync.run, h.sync.rep, h.sync.len, hinv⟩, ?_, ?_, ?_⟩, hmem⟩
  · intro x
    by_cases hx : x ∈ hs
    · obtain ⟨t, ht, e⟩ := (hmem x).1 hx
      rw [hnew t ht x e]
      simp [hx]
    · rw [hold x hx, h.dom]
      simp [hx]
  · rintro x (hx | hx)
    · exact h.sub x hx
    · obtain ⟨t, ht, e⟩ := (hmem x).1 hx
      exact List.mem_of_getElem? e
  · intro x hx
    by_cases hx' : x ∈ hs
    · obtain ⟨t, ht, e⟩ := (hmem x).1 hx'
      exact ⟨t, e, hnew t ht x e, ha.ready.flag t ht⟩
    · rcases hx with hx | hx
      · obtain ⟨i, q1, q2, q3⟩ := h.rem x hx
        exact ⟨i, q1, by rw [hold x hx', q2], flag_ext ha.keep ha.ext q3⟩
      · exact absurd hx hx'

theorem Track.inv {F : RamForest H} {st : List (UndoBatch H × RamForest H)} {p : Pollard H} {K R : H → Prop}
    (h : Track F st p K R) : ∃ L A, TInv F st p L A K R := by
  induction h with
  | empty =>
    obtain ⟨A, hA⟩ := mk_ok (H := H) (leafFn HashOps.zero [])
    exact ⟨[], A, ⟨Ram.Run.empty, Ram.mk_inv.represents (by omega), by simp, hA⟩, fun h => by simp [mk, PosMap.find],
      fun _ h => h.elim, fun _ h => h.elim⟩
  | @restored F st rs p hrun hrs hp =>
    obtain ⟨L, hL, -, hlen⟩ := C16_represents F st hrun
    rw [hL.roots] at hrs
    obtain rfl := Except.ok.inj hrs
    rw [hL.count] at hp
    obtain ⟨s, e1, e2, e3, -⟩ := fromRoots_ok hlen (leafFn HashOps.zero L)
    rw [e1] at hp
    obtain rfl := Except.ok.inj hp
    exact ⟨L, _, ⟨hrun, hL, hlen, e2⟩, fun h => by simp [e3, PosMap.find], fun _ h => h.elim, fun _ h => h.elim⟩
  | @later F F' st u p p1 p2 L L2 V D leaves leaves' K R _ hsy hrep hver hv hl hd hm1 hm2 hrep2 ih =>
    obtain ⟨L0, A1, hT⟩ := ih
    obtain rfl := hrep.unique hT.sync.rep
    obtain ⟨L3, A0, hI0⟩ := hsy.inv
    obtain rfl := hrep.unique hI0.rep
    obtain ⟨u', G, q, L', A', k1, k2, k3, k4, k5⟩ := block_step hT.sync hv hl (fun _ => hI0.ready hver hT.sync hv.bound hd)
    rw [k1] at hm1
    rw [k2] at hm2
    simp only [Except.ok.injEq, Prod.mk.injEq, Option.some.injEq, true_and] at hm1 hm2
    obtain ⟨rfl, rfl⟩ := hm1
    subst hm2
    obtain rfl := hrep2.unique k3.rep
    have hnd := hT.sync.nodup
    have hnd2 := k3.nodup
    have hsurv : ∀ (i : ℕ) (x : H), L[i]? = some x → i ∉ D → ∃ j : ℕ, L2[j]? = some x := by
      intro i x e hiD
      obtain ⟨Kk, m1, m2⟩ := k4
      apply List.mem_iff_getElem?.1
      rw [m2]
      exact List.mem_append_left _ (m1.mem_iff.2 (mem_survivors.2 ⟨i, e, hiD⟩))
    refine ⟨L2, A', k3, ?_, ?_, ?_⟩
    · intro x
      rw [k5.dom, hT.dom]
      apply or_congr_left
      constructor
      · rintro ⟨h1, h2⟩
        have hxL := hT.sub x h1
        obtain ⟨i, e⟩ := List.mem_iff_getElem?.1 hxL
        have hiD : i ∉ D := fun hc => h2 i hc e
        have hs1 := mem_survivors.2 ⟨i, e, hiD⟩
        exact ⟨h1, hs1⟩
      · rintro ⟨h1, h2⟩
        refine ⟨h1, fun t ht e => ?_⟩
        obtain ⟨i, e2, hiD⟩ := mem_survivors.1 h2
        obtain rfl := get_inj hnd e e2
        exact hiD ht
    · rintro x (⟨-, h2⟩ | h1)
      · obtain ⟨i, e, hiD⟩ := mem_survivors.1 h2
        obtain ⟨j, hj⟩ := hsurv i x e hiD
        exact List.mem_of_getElem? hj
      · obtain ⟨i, hi⟩ := List.mem_iff_getElem?.1 h1
        exact List.mem_of_getElem? (k5.add i _ hi rfl).1
    · rintro x (⟨h1, h2, h3, h4⟩ | h1)
      · obtain ⟨i, e, hiD⟩ := mem_survivors.1 h2
        obtain ⟨j, hj⟩ := hsurv i x e hiD
        obtain ⟨i', q1, q2, q3⟩ := hT.rem x h1
        obtain rfl := get_inj hnd e q1
        refine ⟨j, hj, k5.know i j x e hiD hj ?_ ?_ q2, k5.flag i j x e hiD hj q3⟩
        · intro hlt
          obtain ⟨g, hg⟩ : ∃ g, L[i ^^^ 1]? = some g := ⟨_, List.getElem?_eq_getElem hlt⟩
          obtain ⟨i2, w1, -, w3⟩ := hT.rem g (h3 i g e hg)
          obtain rfl := get_inj hnd hg w1
          exact w3
        · intro k g hlt hg hk
          have hjn : j < L.length - D.length := k5.low i j x e hiD hj
          have hg' : (L2.take (L.length - D.length))[j ^^^ 1]? = some g := by
            rw [List.getElem?_take, if_pos hlt, hg]
          have hj' : (L2.take (L.length - D.length))[j]? = some x := by
            rw [List.getElem?_take, if_pos hjn, hj]
          obtain ⟨i2, w1, -, w3⟩ := hT.rem g (h4 j g hj' hg')
          obtain rfl := get_inj hnd hk w1
          exact w3
      · obtain ⟨i, hi⟩ := List.mem_iff_getElem?.1 h1
        obtain ⟨w1, w2, w3⟩ := k5.add i _ hi rfl
        exact ⟨_, w1, w3, w2⟩
  | @verify F st p p' L proof hs b K R _ hrep hver hnc ih =>
    obtain ⟨L0, A, hI⟩ := ih
    obtain rfl := hrep.unique hI.sync.rep
    rcases verify_ok hI.sync.inv hI.sync.len proof hs with ⟨e, -⟩ | ⟨e, -, h0⟩ | ⟨e, -⟩ | ⟨s', e, -, hpm, hs', hk, -⟩ | ⟨s', A1, e, -, ha, -⟩ <;> rw [e] at hver
    · obtain ⟨rfl, rfl⟩ : false = b ∧ p = p' := by simpa using hver
      exact ⟨L, A, by simpa using hI⟩
    · obtain ⟨rfl, rfl⟩ : true = b ∧ p = p' := by simpa using hver
      subst h0
      exact ⟨L, A, by simpa using hI⟩
    · simp at hver
    · obtain ⟨rfl, rfl⟩ : false = b ∧ s' = p' := by simpa using hver
      have : TInv F st s' L A K R := ⟨⟨hI.sync.run, hI.sync.rep, hI.sync.len, hs'⟩, by rw [hpm]; exact hI.dom, hI.sub, by
        intro x hx
        obtain ⟨i, q1, q2, q3⟩ := hI.rem x hx
        exact ⟨i, q1, by rw [hpm]; exact q2, flag_ext hk (fun _ _ _ h => h) q3⟩⟩
      exact ⟨L, A, by simpa using this⟩
    · obtain ⟨rfl, rfl⟩ : true = b ∧ s' = p' := by simpa using hver
      have nc : ¬ Coll s'.ext A1 L.length (leafFn HashOps.zero L) := by rw [coll_iff ha.ph hI.sync.len]; exact hnc rfl
      exact ⟨L, A1, by simpa using (hI.accepted ha nc).1⟩
  | @prune F st p p' K R _ hp ih =>
    obtain ⟨L, A, hI⟩ := ih
    obtain ⟨s', e, h1, -, h3⟩ := pruneAll_ok hI.sync.inv hI.sync.len
    rw [e] at hp
    obtain rfl := Except.ok.inj hp
    exact ⟨L, _, ⟨hI.sync.run, hI.sync.rep, hI.sync.len, h1⟩, by rw [h3]; exact hI.dom, hI.sub, fun _ h => h.elim⟩
  | @rejected F st p p' leaves targets b K R _ hns hm ih =>
    rw [modify_insane _ _ _ hns] at hm
    obtain ⟨-, rfl⟩ : false = b ∧ p = p' := by simpa using hm
    exact ih
  | @reopen F F' st st' p K R _ ho hp hb ih =>
    obtain ⟨L, A, hI⟩ := ih
    have hrun := Ram.Run.reopen hI.sync.run ho hp hb
    obtain ⟨n, f, h1, h2, -⟩ := hI.sync.run.inv
    obtain ⟨s', k1, k2, k3⟩ := Ram.reopen_ok h1 h2
    rw [k1] at ho
    obtain rfl := Except.ok.inj ho
    have e := hI.sync.rep.unique (h1.represents h2)
    refine ⟨L, A, ⟨hrun, ?_, hI.sync.len, hI.sync.inv⟩, hI.dom, hI.sub, hI.rem⟩
    rw [e]
    exact k2.represents h2
  | @copied F st p p' leaves K R _ hk hm ih =>
    obtain ⟨L, A, hI⟩ := ih
    obtain ⟨g1, g2⟩ := hI.sync.copied hk hm
    refine ⟨L, A, g1, hI.dom, hI.sub, fun x hx => ?_⟩
    obtain ⟨i, h1, h2, h3⟩ := hI.rem x hx
    exact ⟨i, h1, h2, by unfold Flag at h3 ⊢; rw [g2]; exact h3⟩

theorem survivors_length {L : List H} (hn : L.length ≤ 2 ^ 62) {D : List ℕ} (hs : D.Pairwise (· < ·)) (hb : ∀ t ∈ D, t < L.length) :
    (survivors L D).length = L.length - D.length := by
  obtain ⟨f1, f2⟩ := Ram.sg_facts hn hs hb
  have e : L = (List.range L.length).map (leafFn HashOps.zero L) := by
    apply List.ext_getElem?
    intro i
    by_cases hi : i < L.length
    · simp [leafFn, hi]
    · simp [hi, List.getElem?_eq_none (Nat.not_lt.1 hi)]
  have := (Ram.range_perm f1 (Nat.sub_le _ _) f2).length_eq
  rw [e, Ram.survivors_range, List.length_map, ← this]
  simp

/-- A block whose deletions are verified just before. -/
theorem Track.block {F F' : RamForest H} {st : List (UndoBatch H × RamForest H)} {u : UndoBatch H} {p p1 p2 : Pollard H} {L L' : List H}
    {proof : BatchProof H} {hs : List H} {leaves leaves' : List (Leaf H)} {K R : H → Prop}
    (h : Track F st p K R) (hrep : Ram.Represents F L) (hv : Ram.Valid L (leaves.map Prod.fst) proof.sorted)
    (hsrt : proof.targets = [] → proof.sorted = []) (hl : leaves'.map Prod.fst = leaves.map Prod.fst)
    (hver : Pol.verify p proof hs = .ok (true, p1)) (hnc : ¬ Collision p1 L)
    (hm1 : Ram.modify F leaves proof.sorted = .ok (true, some u, F')) (hm2 : modify p1 leaves' proof.sorted = .ok (true, p2))
    (hrep2 : Ram.Represents F' L') :
    Track F' ((u, F) :: st) p2
      (fun h => (K h ∧ h ∈ survivors L proof.sorted) ∨ (h, true) ∈ leaves')
      (fun h => (R h ∧ h ∈ survivors L proof.sorted ∧ SibIn L (fun g => R g ∨ g ∈ hs) h ∧
          SibIn (L'.take (L.length - proof.sorted.length)) R h) ∨ (h, true) ∈ leaves') := by
  obtain ⟨L0, A, hI⟩ := h.inv
  obtain rfl := hrep.unique hI.sync.rep
  obtain ⟨h1, h2, hmem⟩ := hI.sync.deletable hsrt hver hnc
  have hT := Track.later (h.verify hrep hver (fun _ => hnc)) h.sync hrep h1 hv hl h2 hm1 hm2 hrep2
  have hnd := hI.sync.nodup
  have hdel : ∀ x, x ∈ survivors L proof.sorted → x ∉ hs := by
    intro x hx hc
    obtain ⟨i, e, hiD⟩ := mem_survivors.1 hx
    obtain ⟨t, ht, e2⟩ := (hmem x).1 hc
    obtain rfl := get_inj hnd e e2
    exact hiD ht
  have hsur : ∀ (i : ℕ) (g : H), (L'.take (L.length - proof.sorted.length))[i]? = some g → g ∈ survivors L proof.sorted := by
    intro i g hg
    obtain ⟨u', G, L2, q1, -, q3, M, m1, m2⟩ := C18_modify F st hI.sync.run L hrep leaves proof.sorted hv
    rw [hm1] at q1
    simp only [Except.ok.injEq, Prod.mk.injEq, Option.some.injEq, true_and] at q1
    obtain ⟨rfl, rfl⟩ := q1
    obtain rfl := hrep2.unique q3
    have hlen : M.length = L.length - proof.sorted.length := by
      rw [m1.length_eq, survivors_length hI.sync.len hv.sorted hv.bound]
    rw [m2, ← hlen, List.take_left'  rfl] at hg
    exact m1.mem_iff.1 (List.mem_of_getElem? hg)
  have e1 : (fun h => ((K h ∨ (true = true ∧ h ∈ hs)) ∧ h ∈ survivors L proof.sorted) ∨ (h, true) ∈ leaves') =
      fun h => (K h ∧ h ∈ survivors L proof.sorted) ∨ (h, true) ∈ leaves' := by
    funext x
    apply propext
    refine or_congr_left ⟨fun ⟨a, b⟩ => ⟨a.resolve_right (fun c => hdel x b c.2), b⟩, fun ⟨a, b⟩ => ⟨.inl a, b⟩⟩
  have e2 : (fun h => ((R h ∨ (true = true ∧ h ∈ hs)) ∧ h ∈ survivors L proof.sorted ∧ SibIn L (fun h => R h ∨ (true = true ∧ h ∈ hs)) h ∧
        SibIn (L'.take (L.length - proof.sorted.length)) (fun h => R h ∨ (true = true ∧ h ∈ hs)) h) ∨ (h, true) ∈ leaves') =
      fun h => (R h ∧ h ∈ survivors L proof.sorted ∧ SibIn L (fun g => R g ∨ g ∈ hs) h ∧
        SibIn (L'.take (L.length - proof.sorted.length)) R h) ∨ (h, true) ∈ leaves' := by
    funext x
    apply propext
    refine or_congr_left ⟨fun ⟨a, b, c, d⟩ => ⟨a.resolve_right (fun c => hdel x b c.2), b, by simpa using c, ?_⟩,
      fun ⟨a, b, c, d⟩ => ⟨.inl a, b, by simpa using c, fun i g e1 e2 => .inl (d i g e1 e2)⟩⟩
    intro i g e1 e2
    exact (d i g e1 e2).resolve_right (fun c => hdel g (hsur _ _ e2) c.2)
  rw [e1, e2] at hT
  exact hT

theorem Track.verifies {F : RamForest H} {st : List (UndoBatch H × RamForest H)} {p p' : Pollard H} {K R V : H → Prop} {L : List H}
    (h : Track F st p K R) (hL : Ram.Represents F L) (hV : Verifies L p V p') : ∃ K' R', Track F st p' K' R' := by
  induction hV with
  | none => exact ⟨_, _, h⟩
  | next _ h1 h2 ih => obtain ⟨K', R', ih⟩ := ih; exact ⟨_, _, .verify ih hL h1 h2⟩

/-! ## Proofs of remembered leaves -/

/-- The nodes of a proof of remembered leaves are cached. -/
theorem flag_proof {heap : List (INode H)} {n : ℕ} {A : Addr} (s : Shape heap (rtOf n) A) {T : List ℕ}
    (h : ∀ t ∈ T, Flag heap (rtOf n) A t) {r k : ℕ} (hk : ProofNode n T r k) : (A r k).isSome := by
  obtain ⟨j, b, hb, rfl, hf, ⟨a, ha, e⟩, -⟩ := hk
  rw [inForest_iff] at hf
  have hj : a / 2 ^ r / 2 = j := by omega
  have hin : a / 2 ^ r < n / 2 ^ r := by rw [div_succ_row] at hf; omega
  have h1 := flag_path s (h a ha) r hin
  rw [holder_sib (rtOf_false (by rw [hj]; exact hf)) (rtOf_false (by rw [sb_div, hj]; exact hf))] at h1
  have e2 : a / 2 ^ r ^^^ 1 = 2 * j + (1 - b) := by rw [xor_one_cases]; split <;> omega
  rw [e2] at h1
  exact h1

theorem lookup_congr {m m' : PosMap H} : ∀ (q : List H), (∀ h ∈ q, PosMap.find m h = PosMap.find m' h) →
    Acc.lookupTargets m q = Acc.lookupTargets m' q := by
  intro q
  induction q with
  | nil => intro _; rfl
  | cons x q ih =>
    intro h
    rw [Acc.lookupTargets, Acc.lookupTargets, h x (by simp), ih (fun y hy => h y (by simp [hy]))]

theorem lookup_mem {m : PosMap H} : ∀ (q : List H) (ts : List ℕ), Acc.lookupTargets m q = some ts →
    ∀ t ∈ ts, ∃ h ∈ q, PosMap.find m h = some t := by
  intro q
  induction q with
  | nil => intro ts h t ht; simp [Acc.lookupTargets] at h; subst h; simp at ht
  | cons x q ih =>
    intro ts h t ht
    rw [Acc.lookupTargets] at h
    cases hx : PosMap.find m x with
    | none => rw [hx] at h; simp at h
    | some v =>
      rw [hx] at h
      simp only at h
      cases hq : Acc.lookupTargets m q with
      | none => rw [hq] at h; simp at h
      | some ts' =>
        rw [hq] at h
        simp only [Option.map_some, Option.some.injEq] at h
        subst h
        rcases List.mem_cons.1 ht with rfl | ht
        · exact ⟨x, by simp, hx⟩
        · obtain ⟨y, hy, e⟩ := ih ts' hq t ht
          exact ⟨y, by simp [hy], e⟩

theorem lookup_miss {m : PosMap H} : ∀ (q : List H) (h : H), h ∈ q → PosMap.find m h = none → Acc.lookupTargets m q = none := by
  intro q
  induction q with
  | nil => intro h hh; simp at hh
  | cons x q ih =>
    intro h hh hf
    rw [Acc.lookupTargets]
    cases hx : PosMap.find m x with
    | none => rfl
    | some v =>
      simp only
      rcases List.mem_cons.1 hh with rfl | hh
      · rw [hx] at hf; simp at hf
      · rw [ih h hh hf]; rfl

/-- The pollard's proof of remembered leaves is the forest's. -/
theorem SyncInv.prove_eq {F : RamForest H} {st : List (UndoBatch H × RamForest H)} {p : Pollard H} {L : List H} {A : Addr}
    (h : SyncInv F st p L A) (q : List H)
    (hq : ∀ x ∈ q, ∃ i, L[i]? = some x ∧ PosMap.find p.posmap x = some i ∧ Flag p.ext (rtOf L.length) A i) :
    Acc.prove vt p q = Acc.prove Ram.vt F q := by
  obtain ⟨n, f, h1, h2, -⟩ := h.run.inv
  have e := h.rep.unique (h1.represents h2)
  have hlen : L.length = n := by rw [e]; simp
  have hg := h1.congr (g := leafFn HashOps.zero L) (fun x hx => by rw [e]; exact (Ram.leafFn_range f _ hx).symm)
  unfold Acc.prove
  rw [lookup_congr q (m := p.posmap) (m' := F.posmap) (by
    intro x hx
    obtain ⟨i, q1, q2, -⟩ := hq x hx
    rw [q2, (h.rep.find x i).2 q1]), h.inv.ph.num, h1.num, ← hlen]
  cases hl : Acc.lookupTargets F.posmap q with
  | none => rfl
  | some ts =>
    simp only
    obtain ⟨b, hb1, hb2⟩ := C07_checkTargetsSanity L.length (St.sortU64 ts)
    rw [hb1, ok_bind, ok_bind]
    cases b with
    | false => rfl
    | true =>
      obtain ⟨hs, hlt⟩ := hb2.1 rfl
      obtain ⟨nodes, comp, q1, -, q3, q4⟩ := Ram.proof_nodes h.len hs hlt
      simp only [Bool.not_true, Bool.false_eq_true, if_false]
      rw [q1, ok_bind, ok_bind]
      have hfl : ∀ t ∈ St.sortU64 ts, Flag p.ext (rtOf L.length) A t := by
        intro t ht
        obtain ⟨x, hx, e1⟩ := lookup_mem q ts hl t ((mem_sortU64 _ _).1 ht)
        obtain ⟨i, w1, w2, w3⟩ := hq x hx
        rw [(h.rep.find x i).2 w1] at e1
        obtain rfl := Option.some.inj e1
        exact w3
      have hall : ∀ x ∈ nodes, (A x.1 x.2).isSome := fun x hx => flag_proof h.inv.ph.shape hfl ((q3 x.1 x.2).1 hx)
      have hr := Ram.readProof_ok (hg.num.trans hlen.symm) h.len (by rw [hlen]; exact hg.cells) nodes q4
      simp only [hr]
      rcases readProof_ok h.inv.ph h.len nodes q4 with ⟨-, a2⟩ | ⟨⟨x, hx, a1⟩, -⟩
      · simp only [a2]
      · have := hall x hx; rw [a1] at this; simp at this

end Pol

open Pol

/-! ## C30: remembered leaves stay provable -/

/-- C30, as far as it holds (see `C30_false`): a pollard proves any set of leaves in `R`, and its
proof is the one of the forest. `R` are the leaves that were added with the remember flag or
verified, and since then were not deleted or pruned, and whose siblings before and after each removal
were in `R` too (see `Track`). What is missing: leaves whose sibling is not remembered. -/
theorem C30_partial (F : RamForest H) (st : List (UndoBatch H × RamForest H)) (p : Pollard H) (K R : H → Prop)
    (h : Track F st p K R) (q : List H) (hnd : q.Nodup) (hq : ∀ x ∈ q, R x) :
    ∃ proof, Acc.prove vt p q = .ok (some proof) ∧ Acc.prove Ram.vt F q = .ok (some proof) := by
  obtain ⟨L, A, hI⟩ := h.inv
  have e := hI.sync.prove_eq q (fun x hx => hI.rem x (hq x hx))
  obtain ⟨r, e1, e2, -⟩ := C22_prove F st hI.sync.run L hI.sync.rep q
  obtain ⟨proof, rfl⟩ := Option.isSome_iff_exists.1 (e2.2 ⟨hnd, fun x hx => by
    obtain ⟨i, q1, -⟩ := hI.rem x (hq x hx)
    exact List.mem_of_getElem? q1⟩)
  exact ⟨proof, by rw [e, e1], e1⟩

/-! ## C39: what a pollard knows -/

/-- C39: `Prove` never faults on a pollard. It fails when a hash is asked for that was not
remembered or was deleted, and a remembered hash is a leaf of the forest. So no deleted leaf and no
hash that never was a leaf is ever proved. -/
theorem C39_known (F : RamForest H) (st : List (UndoBatch H × RamForest H)) (p : Pollard H) (K R : H → Prop)
    (h : Track F st p K R) (L : List H) (hL : Ram.Represents F L) (q : List H) :
    (∀ x, K x → x ∈ L) ∧ (∃ r, Acc.prove vt p q = .ok r) ∧ ((∃ x ∈ q, ¬ K x) → Acc.prove vt p q = .ok none) := by
  obtain ⟨L0, A, hI⟩ := h.inv
  obtain rfl := hL.unique hI.sync.rep
  refine ⟨hI.sub, ?_, ?_⟩
  · unfold Acc.prove
    cases hl : Acc.lookupTargets p.posmap q with
    | none => exact ⟨_, rfl⟩
    | some ts =>
      simp only
      obtain ⟨b, hb1, hb2⟩ := C07_checkTargetsSanity p.numLeaves (St.sortU64 ts)
      rw [hb1, ok_bind]
      cases b with
      | false => exact ⟨_, rfl⟩
      | true =>
        obtain ⟨hs, hlt⟩ := hb2.1 rfl
        rw [hI.sync.inv.ph.num] at hlt ⊢
        obtain ⟨nodes, comp, q1, -, q3, q4⟩ := Ram.proof_nodes hI.sync.len hs hlt
        simp only [Bool.not_true, Bool.false_eq_true, if_false]
        rw [q1, ok_bind]
        rcases readProof_ok hI.sync.inv.ph hI.sync.len nodes q4 with ⟨-, a2⟩ | ⟨-, a2⟩
        · simp only [a2]; exact ⟨_, rfl⟩
        · simp only [a2]; exact ⟨_, rfl⟩
  · rintro ⟨x, hx, hk⟩
    unfold Acc.prove
    rw [lookup_miss q x hx]
    have := hI.dom x
    cases hf : PosMap.find p.posmap x with
    | none => rfl
    | some v => rw [hf] at this; exact absurd (this.1 rfl) hk

/-! ## Whole histories -/

namespace Pol

/-- The remembered leaves after a block. -/
def knownAfter (S : List H) (b : Block H) : List H :=
  S.filter (fun x => !b.dels.contains x) ++ (b.adds.filter fun a => a.2.2).map Prod.fst

theorem play_track {F : RamForest H} {st : List (UndoBatch H × RamForest H)} {p : Pollard H} {K R : H → Prop} (h : Track F st p K R)
    {L S : List H} (hL : Ram.Represents F L) (hS : L.Perm S) {b : Block H} (h1 : b.dels.Nodup) (h2 : ∀ x ∈ b.dels, x ∈ S)
    (h3 : (b.adds.map Prod.fst).Nodup) (h4 : ∀ x ∈ b.adds.map Prod.fst, x ∈ S → x ∈ b.dels)
    (h5 : b.dels ≠ [] → S.length < 2 ^ 32) (h6 : S.length - b.dels.length + b.adds.length ≤ 2 ^ 62) :
    ∃ F' st' p' L' K' R', playBlock F p b = .ok (F', p') ∧ Track F' st' p' K' R' ∧ Ram.Represents F' L' ∧ L'.Perm (after S b) ∧
      (∀ x, K' x ↔ (K x ∧ x ∈ L ∧ x ∉ b.dels) ∨ (x, true) ∈ b.adds.map fun a => (a.1, a.2.2)) ∧
      ((∀ x ∈ L, R x) → (∀ a ∈ b.adds, a.2.2 = true) → ∀ x ∈ L', R' x) := by
  obtain ⟨F', u, p', L', e1, -, e3, e4, proof, hs, p1, ha⟩ := play_step h.sync hL hS h1 h2 h3 h4 h5 h6
  have hT := Track.block h hL ha.valid ha.nil (by simp [Function.comp_def]) ha.ver ha.coll ha.forest ha.pollard e3
  refine ⟨F', _, p', L', _, _, e1, hT, e3, e4, ?_, ?_⟩
  · intro x
    simp only [ha.surv, List.mem_filter, List.contains_eq_mem, Bool.not_eq_true', decide_eq_false_iff_not]
  · intro hR hrem x hx
    rcases List.mem_append.1 (e4.mem_iff.1 hx) with h7 | h7
    · left
      obtain ⟨h8, h9⟩ := List.mem_filter.1 h7
      have hxL := hS.mem_iff.2 h8
      refine ⟨hR x hxL, by rw [ha.surv]; exact List.mem_filter.2 ⟨hxL, h9⟩, ?_, ?_⟩
      · intro i g _ hg
        exact .inl (hR g (List.mem_of_getElem? hg))
      · intro i g _ hg
        -- the first leaves after the block are survivors
        obtain ⟨L0, A, hI⟩ := h.inv
        obtain rfl := hL.unique hI.sync.rep
        obtain ⟨Q, m1, m2⟩ := ha.mod
        have hlen : Q.length = L.length - proof.sorted.length := by
          rw [m1.length_eq, survivors_length hI.sync.len ha.valid.sorted ha.valid.bound]
        rw [m2, ← hlen, List.take_left] at hg
        have hgs := m1.mem_iff.1 (List.mem_of_getElem? hg)
        rw [ha.surv] at hgs
        exact hR g (List.mem_filter.1 hgs).1
    · right
      obtain ⟨a, h8, rfl⟩ := List.mem_map.1 h7
      exact List.mem_map.2 ⟨a, h8, by rw [hrem a h8]⟩

theorem play_all : ∀ (bs : List (Block H)) (S L : List H) (F : RamForest H) (st : List (UndoBatch H × RamForest H)) (p : Pollard H)
    (K R : H → Prop) (Q : List H), Track F st p K R → Ram.Represents F L → L.Perm S → ValidBlocks S bs → (∀ x, K x ↔ x ∈ Q) →
    ∃ F' st' p' L' K' R', play bs F p = .ok (F', p') ∧ Track F' st' p' K' R' ∧ Ram.Represents F' L' ∧ L'.Perm (bs.foldl after S) ∧
      (∀ x, K' x ↔ x ∈ bs.foldl knownAfter Q) ∧
      ((∀ x ∈ L, R x) → (∀ b ∈ bs, ∀ a ∈ b.adds, a.2.2 = true) → ∀ x ∈ L', R' x) := by
  intro bs
  induction bs with
  | nil => intro S L F st p K R Q h hL hS _ hQ; exact ⟨F, st, p, L, K, R, rfl, h, hL, hS, hQ, fun h _ => h⟩
  | cons b bs ih =>
    rintro S L F st p K R Q h hL hS ⟨h1, h2, h3, h4, h5, h6, h7⟩ hQ
    obtain ⟨F1, st1, p1, L1, K1, R1, e1, e2, e3, e4, e5, e6⟩ := play_track h hL hS h1 h2 h3 h4 h5 h6
    have hsub := (C39_known F st p K R h L hL []).1
    obtain ⟨F', st', p', L', K', R', g1, g2, g3, g4, g5, g6⟩ := ih _ _ _ _ _ _ _ (knownAfter Q b) e2 e3 e4 h7 (by
      intro x
      rw [e5]
      unfold knownAfter
      rw [List.mem_append, List.mem_filter, ← hQ]
      apply or_congr
      · simp only [List.contains_eq_mem, Bool.not_eq_true', decide_eq_false_iff_not]
        exact ⟨fun hh => ⟨hh.1, hh.2.2⟩, fun hh => ⟨hh.1, hsub x hh.1, hh.2⟩⟩
      · simp only [List.mem_map, List.mem_filter, Prod.mk.injEq]
        constructor
        · rintro ⟨a, w1, w2, w3⟩; exact ⟨a, ⟨w1, w3⟩, w2⟩
        · rintro ⟨a, ⟨w1, w3⟩, w2⟩; exact ⟨a, w1, w2, w3⟩)
    refine ⟨F', st', p', L', K', R', ?_, g2, g3, g4, g5, ?_⟩
    · rw [play, e1, ok_bind]; exact g1
    · intro hR hb
      exact g6 (e6 hR (hb b (by simp))) (fun b' hb' => hb b' (by simp [hb']))

end Pol

/-- C30: a pollard that is told to remember every leaf proves, after every history of valid blocks,
every set of leaves, with the proof of the forest. -/
theorem C30_all_partial (bs : List (Block H)) (hv : ValidBlocks [] bs) (hrem : ∀ b ∈ bs, ∀ a ∈ b.adds, a.2.2 = true) :
    ∃ F p, play bs (Ram.mk 0) (mk 0) = .ok (F, p) ∧ ∀ q : List H, q.Nodup → (∀ x ∈ q, x ∈ bs.foldl after []) →
      ∃ proof, Acc.prove vt p q = .ok (some proof) ∧ Acc.prove Ram.vt F q = .ok (some proof) := by
  obtain ⟨F, st, p, L, K, R, e1, e2, -, e4, -, e6⟩ := play_all bs [] [] _ _ _ _ _ [] Track.empty
    (Ram.mk_inv.represents (f := leafFn HashOps.zero []) (by omega)) (List.Perm.refl _) hv (by simp)
  exact ⟨F, p, e1, fun q hnd hq => C30_partial F st p K R e2 q hnd (fun x hx => e6 (by simp) hrem x (e4.mem_iff.2 (hq x hx)))⟩

/-- C39: after every history of valid blocks the pollard proves nothing but leaves that were added
with its remember flag and not deleted since. -/
theorem C39_history (bs : List (Block H)) (hv : ValidBlocks [] bs) :
    ∃ F p, play bs (Ram.mk 0) (mk 0) = .ok (F, p) ∧ ∀ q : List H, (∃ x ∈ q, x ∉ bs.foldl knownAfter []) →
      Acc.prove vt p q = .ok none := by
  obtain ⟨F, st, p, L, K, R, e1, e2, e3, -, e5, -⟩ := play_all bs [] [] _ _ _ _ _ [] Track.empty
    (Ram.mk_inv.represents (f := leafFn HashOps.zero []) (by omega)) (List.Perm.refl _) hv (by simp)
  refine ⟨F, p, e1, fun q hq => (C39_known F st p K R e2 L e3 q).2.2 ?_⟩
  obtain ⟨x, hx, hn⟩ := hq
  exact ⟨x, hx, fun hk => hn ((e5 x).1 hk)⟩

/-! ## Concrete cases -/

section Examples

attribute [local instance] toyOps

/-- The blocks of `toyBlocks` with a pollard that remembers every leaf. -/
def keepAll (bs : List (Block ℕ)) : List (Block ℕ) := bs.map fun b => { b with adds := b.adds.map fun a => (a.1, a.2.1, true) }

/-- They meet the hypotheses of `C30_all_partial`. -/
example : ValidBlocks [] (keepAll toyBlocks) ∧ ∀ b ∈ keepAll toyBlocks, ∀ a ∈ b.adds, a.2.2 = true := by
  refine ⟨⟨by decide, by decide, by decide, by decide, by decide, by decide,
    by decide, by decide, by decide, by decide, by decide, by decide,
    by decide, by decide, by decide, by decide, by decide, by decide, trivial⟩, by decide⟩

/-- After the second of them six leaves are left, and the pollard proves two of them as the forest
does. -/
example : toyAfter (keepAll (toyBlocks.take 2)) (fun F p => do
      let a ← Acc.prove Ram.vt F [17, 14]
      let b ← Acc.prove vt p [17, 14]
      return (a, a == b)) =
    .ok (some { targets := [2, 5], sorted := [2, 5], hashes := [16, 21, 13121] }, true) := by decide +kernel

/-- With the flags of `toyBlocks`, 14 is the one leaf that is known after the second block. -/
example : (toyBlocks.take 2).foldl knownAfter [] = [14] := by decide

/-- The pollard proves it, but neither the deleted leaf 15 nor the leaf 13, which it was not told to
remember (C39). -/
example : toyAfter (toyBlocks.take 2) (fun _ p => do
      return ((← Acc.prove vt p [14]).isSome, (← Acc.prove vt p [15]).isSome, (← Acc.prove vt p [13]).isSome)) =
    .ok (true, false, false) := by decide +kernel

end Examples

end Utreexo
