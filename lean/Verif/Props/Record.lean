import Verif.Props.Stale
import Verif.Props.Order
import Verif.Spec.Memo

/-!
# C30: exactly when the position recorded for a leaf is right

`Recorded F st p m` are the histories of a forest and a pollard together with the `Memo` of the pollard, which is computed from
the lists of leaves alone. The pollard's position map, the leaves it can read and those it remembers are those of the memo. A
remembered leaf is provable exactly if the memo has its position.
-/

set_option linter.unusedSectionVars false

namespace Utreexo
open Spec Equiv

variable {H : Type} [DecidableEq H] [HashOps H]

open Pol

/-- The histories of `Held`, with the memo. All operations of a pollard are among them, with every proof,
accepted or rejected; the leaves deleted are known at the time. -/
inductive Recorded : RamForest H → List (UndoBatch H × RamForest H) → Pollard H → Memo H → Prop
  | empty : Recorded (Ram.mk 0) [] (Pol.mk 0) Memo.empty
  | restored {F : RamForest H} {st : List (UndoBatch H × RamForest H)} {rs : List H} {p : Pollard H} {L : List H} :
      Ram.Run F st → Ram.Represents F L → Ram.roots F = .ok rs → fromRoots rs F.numLeaves = .ok p →
      Recorded F st p (Memo.roots L)
  | later {F F' : RamForest H} {st : List (UndoBatch H × RamForest H)} {u : UndoBatch H} {p p1 p2 : Pollard H} {L L' : List H}
      {V : H → Prop} {D : List ℕ} {leaves leaves' : List (Leaf H)} {m : Memo H} :
      Recorded F st p1 m → Sync F st p → Ram.Represents F L → Verifies L p V p1 → Ram.Valid L (leaves.map Prod.fst) D →
      leaves'.map Prod.fst = leaves.map Prod.fst → Deletable L V p1 D →
      Ram.modify F leaves D = .ok (true, some u, F') → Pol.modify p1 leaves' D = .ok (true, p2) → Ram.Represents F' L' →
      Recorded F' ((u, F) :: st) p2 (m.block L D.length leaves' L')
  | verify {F : RamForest H} {st : List (UndoBatch H × RamForest H)} {p p' : Pollard H} {L : List H}
      {proof : BatchProof H} {hs : List H} {m : Memo H} :
      Recorded F st p m → Ram.Represents F L → Pol.verify p proof hs = .ok (true, p') → ¬ Collision p' L →
      Recorded F st p' (m.verify L hs)
  | refused {F : RamForest H} {st : List (UndoBatch H × RamForest H)} {p p' : Pollard H} {L : List H}
      {proof : BatchProof H} {hs : List H} {m : Memo H} :
      Recorded F st p m → Ram.Represents F L → Pol.verify p proof hs = .ok (false, p') →
      Recorded F st p' (m.refused L proof.sorted (numCachedLeaves p' - numCachedLeaves p))
  | prune {F : RamForest H} {st : List (UndoBatch H × RamForest H)} {p p' : Pollard H} {L : List H} {m : Memo H} :
      Recorded F st p m → Ram.Represents F L → pruneAll p = .ok p' → Recorded F st p' (m.prune L)
  | rejected {F : RamForest H} {st : List (UndoBatch H × RamForest H)} {p p' : Pollard H} {leaves : List (Leaf H)}
      {targets : List ℕ} {b : Bool} {m : Memo H} : Recorded F st p m →
      ¬ (targets.Pairwise (· < ·) ∧ ∀ t ∈ targets, t < p.numLeaves) →
      Pol.modify p leaves targets = .ok (b, p') → Recorded F st p' m
  | reopen {F F' : RamForest H} {st st' : List (UndoBatch H × RamForest H)} {p : Pollard H} {m : Memo H} : Recorded F st p m →
      Ram.reopen F = .ok F' → st' <+: st → (∀ e ∈ st', e.2.numLeaves ≤ 2 ^ Nat.size F.numLeaves) → Recorded F' st' p m
  | copied {F : RamForest H} {st : List (UndoBatch H × RamForest H)} {p p' : Pollard H} {leaves : List (Leaf H)} {m : Memo H} :
      Recorded F st p m → Apart p leaves → Pol.modify p leaves [] = .ok (true, p') →
      Recorded F st (copyAfterModify leaves [] p p') m

namespace Pol

/-- The list after a block is what is left of the list before, followed by the leaves added. -/
theorem take_modified {L L' adds : List H} {D : List ℕ} (hlen : L.length ≤ 2 ^ 62) (hv : Ram.Valid L adds D)
    (hm : Modified L adds D L') : (L'.take (L.length - D.length)).Perm (survivors L D) ∧ L' = L'.take (L.length - D.length) ++ adds := by
  obtain ⟨K, h1, rfl⟩ := hm
  have hl : K.length = L.length - D.length := by rw [h1.length_eq, survivors_length hlen hv.sorted hv.bound]
  rw [← hl, List.take_left' rfl]
  exact ⟨h1, rfl⟩

/-- The pollard has what the memo says. -/
structure RInv (F : RamForest H) (st : List (UndoBatch H × RamForest H)) (p : Pollard H) (L : List H) (A : Addr) (m : Memo H) : Prop where
  sync : SyncInv F st p L A
  seen : ∀ i x, L[i]? = some x → ((A 0 i).isSome ↔ m.seen x = true)
  pos : ∀ x, PosMap.find p.posmap x = m.pos x
  dom : ∀ x, (m.pos x).isSome → x ∈ L
  bnd : ∀ x v, m.pos x = some v → v < 2 ^ 64

/-- The entries of the position map after an accepted proof. -/
theorem Accepted.find {p p' : Pollard H} {L : List H} {A A1 : Addr} {D : List ℕ} {hs : List H} (hnd : L.Nodup)
    (ha : Accepted p p' L.length (leafFn HashOps.zero L) A A1 D hs) (hhs : hs = D.map (leafFn HashOps.zero L)) :
    (∀ x, x ∈ hs ↔ ∃ t ∈ D, L[t]? = some x) ∧ (∀ x, x ∉ hs → PosMap.find p'.posmap x = PosMap.find p.posmap x) ∧
      ∀ t ∈ D, ∀ x, L[t]? = some x → PosMap.find p'.posmap x = some t := by
  have hmem : ∀ x, x ∈ hs ↔ ∃ t ∈ D, L[t]? = some x := by
    intro x
    rw [hhs, List.mem_map]
    constructor
    · rintro ⟨t, ht, rfl⟩
      exact ⟨t, ht, leafFn_get.2 ⟨ha.sane.lt t ht, rfl⟩⟩
    · rintro ⟨t, ht, e⟩
      exact ⟨t, ht, (leafFn_get.1 e).2⟩
  have hz : hs.zip D = D.map fun t => (leafFn HashOps.zero L t, t) := by
    rw [hhs]
    have : ∀ (l : List ℕ) (f : ℕ → H), (l.map f).zip l = l.map fun t => (f t, t) := by
      intro l f
      induction l with
      | nil => rfl
      | cons t l ih => simp [ih]
    exact this _ _
  have hpm := ha.posmap
  rw [hz] at hpm
  obtain ⟨i1, i2⟩ := find_foldl (D.map fun t => (leafFn HashOps.zero L t, t)) p.posmap
  rw [← hpm] at i1 i2
  refine ⟨hmem, ?_, ?_⟩
  · intro x hx
    apply i1
    intro e he hc
    obtain ⟨t, ht, rfl⟩ := List.mem_map.1 he
    exact hx ((hmem x).2 ⟨t, ht, leafFn_get.2 ⟨ha.sane.lt t ht, hc⟩⟩)
  · intro t ht x e
    apply i2
    · exact ⟨_, List.mem_map_of_mem ht, (leafFn_get.1 e).2⟩
    · intro e' he' h1
      obtain ⟨t', ht', rfl⟩ := List.mem_map.1 he'
      exact get_inj hnd (leafFn_get.2 ⟨ha.sane.lt t' ht', h1⟩) e

/-- The leaves a proof tree has. -/
theorem mem_Vn_zero {n : ℕ} {D : List ℕ} (hD : Sane n D) {x : ℕ} (hx : x < n) :
    x ∈ Vn n D 0 ↔ x ∈ D ∨ x ^^^ 1 ∈ D := by
  rw [Vn_cases hD, mem_Pn hD]
  constructor
  · rintro (h | ⟨h, -, -⟩)
    · exact .inl h
    · exact .inr h
  · rintro (h | h)
    · exact .inl h
    · by_cases hc : x ∈ D
      · exact .inl hc
      · refine .inr ⟨h, ?_, hc⟩
        have h1 := hD.lt _ h
        have h2 := xor_one_cases x
        split at h2 <;> omega

theorem lone_iff {L : List H} (hnd : L.Nodup) {i : ℕ} {x : H} (h : L[i]? = some x) :
    rtOf L.length 0 i = true ↔ (Memo.roots L).seen x = true := by
  have hi := (List.getElem?_eq_some_iff.1 h).1
  simp only [Memo.roots, Bool.and_eq_true, decide_eq_true_eq, List.mem_of_getElem? h, true_and, beside_eq hnd h,
    Option.isNone_iff_eq_none, List.getElem?_eq_none_iff]
  constructor
  · intro hr
    by_contra hc
    rw [rtOf_iff (by simpa using hi)] at hr
    have := xor_one_cases i
    split at this <;> omega
  · intro hc
    exact rt_of_sib hi (by omega)

/-- What can be read. -/
theorem RInv.read {F : RamForest H} {st : List (UndoBatch H × RamForest H)} {p : Pollard H} {L : List H} {A : Addr} {m : Memo H}
    (hI : RInv F st p L A m) {i : ℕ} {x : H} (hx : L[i]? = some x) : Pol.read p i = .ok (if m.seen x then some x else none) := by
  have hi := (List.getElem?_eq_some_iff.1 hx).1
  have h1 := hI.sync.inv.read_at hI.sync.len (r := 0) (i := i) (by simpa using hi)
  have h2 : at' L 0 i = i := by unfold at'; exact posOf_zero _ _
  have h3 : node L 0 i = x := by
    unfold node
    rw [(leafFn_get.1 hx).2.symm]; rfl
  rw [h2, h3] at h1
  rw [h1]
  have h4 := hI.seen i x hx
  cases hA : A 0 i with
  | none =>
    rw [hA] at h4
    have : ¬ m.seen x = true := fun hc => by simpa using h4.2 hc
    rw [if_neg this]; rfl
  | some a =>
    rw [hA] at h4
    rw [if_pos (h4.1 rfl)]; rfl

/-- The leaves whose neighbour, if any, can be read. -/
theorem RInv.near {F : RamForest H} {st : List (UndoBatch H × RamForest H)} {p : Pollard H} {L : List H} {A : Addr} {m : Memo H}
    (hI : RInv F st p L A m) {x : H} (hx : x ∈ L) :
    (beside L x).all m.seen = true ↔ ∀ g, beside L x = some g → Pol.read p (L.idxOf g) = .ok (some g) := by
  obtain ⟨i, hi⟩ := List.mem_iff_getElem?.1 hx
  rw [beside_eq hI.sync.nodup hi]
  cases hg : L[i ^^^ 1]? with
  | none => simp
  | some g =>
    simp only [Option.all_some, Option.some.injEq, forall_eq']
    rw [idx_eq hI.sync.nodup hg, hI.read hg]
    cases m.seen g <;> simp

theorem Held.conv {F : RamForest H} {st : List (UndoBatch H × RamForest H)} {p : Pollard H} {Q Q' : H → Prop} (h : Held F st p Q)
    (e : ∀ x, Q x ↔ Q' x) : Held F st p Q' := by
  have : Q = Q' := funext fun x => propext (e x)
  rw [← this]; exact h

/-- The memo of a history has the remembered leaves, and the pollard has what the memo says. -/
theorem _root_.Utreexo.Recorded.all {F : RamForest H} {st : List (UndoBatch H × RamForest H)} {p : Pollard H} {m : Memo H}
    (h : Recorded F st p m) : Held F st p (fun x => m.held x = true) ∧ ∃ L A, RInv F st p L A m := by
  induction h with
  | empty =>
    obtain ⟨A, hA⟩ := mk_ok (H := H) (leafFn HashOps.zero [])
    refine ⟨Held.conv .empty (fun x => by simp [Memo.empty]), ?_⟩
    exact ⟨[], A, ⟨Ram.Run.empty, Ram.mk_inv.represents (by omega), by simp, hA⟩, fun i x hx => by simp at hx,
      fun x => by simp [Pol.mk, PosMap.find, Memo.empty], fun x hx => by simp [Memo.empty] at hx, fun x v hx => by simp [Memo.empty] at hx⟩
  | @restored F st rs p L hrun hL hrs hp =>
    refine ⟨Held.conv (.restored hrun hrs hp) (fun x => by simp [Memo.roots]), ?_⟩
    obtain ⟨L1, hL1, hnd, hlen⟩ := C16_represents F st hrun
    obtain rfl := hL.unique hL1
    rw [hL.roots] at hrs
    obtain rfl := Except.ok.inj hrs
    rw [hL.count] at hp
    obtain ⟨s, e1, e2, e3, e4⟩ := fromRoots_ok hlen (leafFn HashOps.zero L)
    rw [e1] at hp
    obtain rfl := Except.ok.inj hp
    refine ⟨L, _, ⟨hrun, hL, hlen, e2⟩, fun i x hx => ?_, fun x => by simp [e3, PosMap.find, Memo.roots], fun x hx => by simp [Memo.roots] at hx,
      fun x v hx => by simp [Memo.roots] at hx⟩
    rw [← lone_iff hnd hx]
    unfold rootAddr
    split <;> simp_all
  | @later F F' st u p p1 p2 L L2 V D leaves leaves' m h0 hsy hrep hver hv hl hd hm1 hm2 hrep2 ih =>
    obtain ⟨ihH, L0, A1, hT⟩ := ih
    obtain rfl := hrep.unique hT.sync.rep
    have hfin : Held F' ((u, F) :: st) p2 (fun x => (m.block L D.length leaves' L2).held x = true) := by
      refine Held.conv (.later ihH hsy hrep hver hv hl hd hm1 hm2) (fun x => ?_)
      obtain ⟨u', G, L2, q1, -, q3, q4⟩ := C18_modify F st hT.sync.run L hrep leaves D hv
      rw [hm1] at q1
      simp only [Except.ok.injEq, Prod.mk.injEq, Option.some.injEq, true_and] at q1
      obtain ⟨rfl, rfl⟩ := q1
      obtain rfl := hrep2.unique q3
      have hM := (take_modified hT.sync.len hv q4).1
      simp only [Memo.block, Bool.or_eq_true, Bool.and_eq_true, decide_eq_true_eq, hM.mem_iff]
    refine ⟨hfin, ?_⟩
    obtain ⟨L3, A0, hI0⟩ := hsy.inv
    obtain rfl := hrep.unique hI0.rep
    obtain ⟨L4, A4, hH⟩ := ihH.inv
    obtain rfl := hrep.unique hH.sync.rep
    obtain rfl := hH.sync.inv.addr_unique hT.sync.inv hT.sync.len
    obtain ⟨u', G, q, L', A', k1, k2, k3, k4, k5⟩ := block_step hT.sync hv hl (fun _ => hI0.ready hver hT.sync hv.bound hd)
    rw [k1] at hm1
    rw [k2] at hm2
    simp only [Except.ok.injEq, Prod.mk.injEq, Option.some.injEq, true_and] at hm1 hm2
    obtain ⟨rfl, rfl⟩ := hm1
    subst hm2
    obtain rfl := hrep2.unique k3.rep
    obtain ⟨L5, A5, hH2⟩ := hfin.inv
    obtain rfl := hrep2.unique hH2.sync.rep
    obtain rfl := k3.inv.addr_unique hH2.sync.inv k3.len
    have hnd := hT.sync.nodup
    have hnd2 := k3.nodup
    obtain ⟨hM1, hM2⟩ := take_modified hT.sync.len hv k4
    set n' := L.length - D.length with hn'
    set M := L2.take n' with hMdef
    have hndM : M.Nodup := hnd2.sublist (List.take_sublist _ _)
    have hMget : ∀ j, M[j]? = if j < n' then L2[j]? else none := fun j => by rw [hMdef, List.getElem?_take]
    -- a survivor
    have hsurv : ∀ x, x ∈ M ↔ ∃ i : ℕ, L[i]? = some x ∧ i ∉ D := fun x => by rw [hM1.mem_iff, mem_survivors]
    have hplace : ∀ x, x ∈ M → ∃ j : ℕ, j < n' ∧ L2[j]? = some x ∧ M[j]? = some x := by
      intro x hx
      obtain ⟨j, hj⟩ := List.mem_iff_getElem?.1 hx
      have h1 := hMget j
      rw [hj] at h1
      split at h1
      · exact ⟨j, by assumption, h1.symm, hj⟩
      · simp at h1
    have hadds : ∀ x, (x, true) ∈ leaves' → x ∉ M := by
      intro x hx hc
      have h1 : x ∈ leaves.map Prod.fst := by rw [← hl]; exact List.mem_map_of_mem (f := Prod.fst) hx
      rw [hM2, List.nodup_append] at hnd2
      exact hnd2.2.2 x hc x h1 rfl
    -- whether a survivor with a neighbour is read
    have hcond : ∀ (x : H) (i j k : ℕ) (g : H), L[i]? = some x → i ∉ D → L2[j]? = some x → j ^^^ 1 < n' → L2[j ^^^ 1]? = some g →
        L[k]? = some g → ((Flag p1.ext (rtOf L.length) A4 k ∨ (k = i ^^^ 1 ∧ (A4 0 i).isSome)) ↔ m.kept L M x = true) := by
      intro x i j k g e1 e2 e3 e4 e5 e6
      have hj : j < n' := k5.low i j x e1 e2 e3
      have hMj : M[j]? = some x := by rw [hMget, if_pos hj, e3]
      have hb : beside M x = some g := by rw [beside_eq hndM hMj, hMget, if_pos e4, e5]
      unfold Memo.kept
      rw [hb]
      simp only [Bool.or_eq_true, Bool.and_eq_true, decide_eq_true_eq]
      rw [hH.flag k g e6, hT.seen i x e1, beside_eq hnd e1]
      refine or_congr_right (and_congr_left fun _ => ?_)
      constructor
      · rintro rfl; exact e6
      · intro e; exact get_inj hnd e6 e
    have hwhere : ∀ (j : ℕ) (x : H), j < n' → L2[j]? = some x → ∃ i : ℕ, L[i]? = some x ∧ i ∉ D := by
      intro j x hj e
      rw [← hsurv]
      exact List.mem_of_getElem? (i := j) (by rw [hMget, if_pos hj, e])
    have hseen : ∀ j x, L2[j]? = some x → ((A' 0 j).isSome ↔ (m.block L D.length leaves' L2).seen x = true) := by
      intro j x hj
      have hjl := (List.getElem?_eq_some_iff.1 hj).1
      show _ ↔ (if (beside M x).isSome then m.kept L M x else _) = true
      by_cases hin : j < n' ∧ j ^^^ 1 < n'
      · have hMj : M[j]? = some x := by rw [hMget, if_pos hin.1, hj]
        have hgl : j ^^^ 1 < L2.length := by
          have : n' ≤ L2.length := by rw [hM2, List.length_append, hM1.length_eq, survivors_length hT.sync.len hv.sorted hv.bound]; omega
          omega
        obtain ⟨g, hg⟩ : ∃ g, L2[j ^^^ 1]? = some g := ⟨_, List.getElem?_eq_getElem hgl⟩
        have hb : beside M x = some g := by rw [beside_eq hndM hMj, hMget, if_pos hin.2, hg]
        obtain ⟨i, e1, e2⟩ := hwhere j x hin.1 hj
        obtain ⟨k, e3, e4⟩ := hwhere (j ^^^ 1) g hin.2 hg
        rw [if_pos (by rw [hb]; rfl), k5.old i j k x g e1 e2 hj hin.2 hg e3]
        exact hcond x i j k g e1 e2 hj hin.2 hg e3
      · have hb : beside M x = none := by
          by_cases hx : x ∈ M
          · obtain ⟨j', a1, a2, a3⟩ := hplace x hx
            obtain rfl := get_inj hnd2 hj a2
            rw [beside_eq hndM a3, hMget, if_neg (fun hc => hin ⟨a1, hc⟩)]
          · exact beside_out hx
        rw [if_neg (by rw [hb]; simp), beside_eq hnd2 hj]
        cases hg : L2[j ^^^ 1]? with
        | none =>
          have h1 : rtOf L2.length 0 j = true := rt_of_sib hjl (by
            have := List.getElem?_eq_none_iff.1 hg; omega)
          refine iff_of_true (k3.inv.ph.shape.root 0 j h1) ?_
          simpa using List.mem_of_getElem? hj
        | some g =>
          have hgl := (List.getElem?_eq_some_iff.1 hg).1
          rw [k5.new j hjl hgl hin, hH2.flag j x hj, hH2.flag _ g hg]
          simp only [Memo.block, Bool.or_eq_true]
    have hpos : ∀ x, PosMap.find q.posmap x = (m.block L D.length leaves' L2).pos x := by
      intro x
      show _ = if (x, true) ∈ leaves' then some (L2.idxOf x) else if x ∈ M then _ else none
      by_cases hx : (x, true) ∈ leaves'
      · rw [if_pos hx]
        obtain ⟨i, hi⟩ := List.mem_iff_getElem?.1 hx
        obtain ⟨g1, -, g3⟩ := k5.add i _ hi rfl
        rw [idx_eq hnd2 g1]
        exact g3
      · rw [if_neg hx]
        by_cases hxM : x ∈ M
        · rw [if_pos hxM]
          obtain ⟨j, a1, a2, a3⟩ := hplace x hxM
          obtain ⟨i, e1, e2⟩ := (hsurv x).1 hxM
          cases hp : m.pos x with
          | none =>
            have h1 := hT.pos x
            rw [hp] at h1
            rw [k5.left i j x e1 e2 a2 h1]; rfl
          | some v =>
            have h1 := hT.pos x
            rw [hp] at h1
            have hv64 := hT.bnd x v hp
            rw [Option.map_some, idx_eq hnd e1]
            unfold Memo.moved
            by_cases hs : j ^^^ 1 < n'
            · have hgl : j ^^^ 1 < L2.length := by
                have : n' ≤ L2.length := by rw [hM2, List.length_append, hM1.length_eq, survivors_length hT.sync.len hv.sorted hv.bound]; omega
                omega
              obtain ⟨g, hg⟩ : ∃ g, L2[j ^^^ 1]? = some g := ⟨_, List.getElem?_eq_getElem hgl⟩
              have hb : beside M x = some g := by rw [beside_eq hndM a3, hMget, if_pos hs, hg]
              obtain ⟨k, e3, e4⟩ := hwhere (j ^^^ 1) g hs hg
              have hc := hcond x i j k g e1 e2 a2 hs hg e3
              by_cases hk : m.kept L M x = true
              · rw [if_pos hk, idx_eq hndM a3]
                exact k5.seen i j k x g v e1 e2 a2 hs hg e3 (hc.2 hk) hv64 h1
              · rw [if_neg hk, hb]
                simp only
                rw [idx_eq hnd e1, idx_eq hnd e3]
                exact k5.unseen i j k x g v e1 e2 a2 hs hg e3 (fun h => hk (hc.1 h)) hv64 h1
            · have hb : beside M x = none := by rw [beside_eq hndM a3, hMget, if_neg hs]
              rw [if_pos (by unfold Memo.kept; rw [hb]), idx_eq hndM a3]
              exact k5.alone i j x v e1 e2 a2 hs hv64 h1
        · rw [if_neg hxM]
          have h1 := k5.dom x
          cases hf : PosMap.find q.posmap x with
          | none => rfl
          | some v =>
            rw [hf] at h1
            rcases h1.1 rfl with ⟨h2, h3⟩ | h2
            · exfalso
              rw [hT.pos x] at h2
              obtain ⟨i, e⟩ := List.mem_iff_getElem?.1 (hT.dom x h2)
              exact hxM ((hsurv x).2 ⟨i, e, fun hc => h3 i hc e⟩)
            · exact absurd h2 hx
    refine ⟨L2, A', k3, hseen, hpos, ?_, ?_⟩
    · intro x hx
      have h1 : ((m.block L D.length leaves' L2).pos x).isSome := hx
      simp only [Memo.block] at h1
      split at h1
      · rename_i hx'
        obtain ⟨i, hi⟩ := List.mem_iff_getElem?.1 hx'
        exact List.mem_of_getElem? (k5.add i _ hi rfl).1
      · split at h1
        · rename_i hx'
          exact List.mem_of_mem_take hx'
        · simp at h1
    · intro x v hx
      simp only [Memo.block] at hx
      split at hx
      · rename_i hx'
        obtain ⟨i, hi⟩ := List.mem_iff_getElem?.1 hx'
        have g1 := (k5.add i _ hi rfl).1
        rw [idx_eq hnd2 g1] at hx
        have := (List.getElem?_eq_some_iff.1 g1).1
        have := k3.len
        obtain rfl := Option.some.inj hx
        omega
      · split at hx
        · obtain ⟨w, -, rfl⟩ := Option.map_eq_some_iff.1 hx
          unfold shifted
          exact Nat.mod_lt _ (by norm_num)
        · simp at hx
  | @verify F st p p' L proof hs m _ hrep hver hnc ih =>
    obtain ⟨ihH, L0, A, hI⟩ := ih
    refine ⟨Held.conv (.verify ihH hrep hver hnc) (fun x => by simp [Memo.verify]), ?_⟩
    obtain rfl := hrep.unique hI.sync.rep
    rcases verify_ok hI.sync.inv hI.sync.len proof hs with ⟨e, -⟩ | ⟨e, -, h0⟩ | ⟨e, -⟩ | ⟨s', e, -⟩ | ⟨s', A1, e, -, ha, -⟩ <;> rw [e] at hver
    · simp at hver
    · obtain rfl : p = p' := by simpa using hver
      subst h0
      refine ⟨L, A, hI.sync, fun i x hx => ?_, fun x => ?_, fun x hx => ?_, fun x v hx => ?_⟩
      · rw [hI.seen i x hx]
        cases hb : beside L x <;> simp [Memo.verify]
      · simpa [Memo.verify] using hI.pos x
      · exact hI.dom x (by simpa [Memo.verify] using hx)
      · exact hI.bnd x v (by simpa [Memo.verify] using hx)
    · simp at hver
    · simp at hver
    · obtain rfl : s' = p' := by simpa using hver
      have nc : ¬ Coll s'.ext A1 L.length (leafFn HashOps.zero L) := by rw [coll_iff ha.ph hI.sync.len]; exact hnc
      obtain ⟨hinv, hhs⟩ := ha.sound hI.sync.inv nc
      have hnd := hI.sync.nodup
      obtain ⟨hmem, hold, hnew⟩ := Accepted.find hnd ha hhs
      refine ⟨L, A1, ⟨hI.sync.run, hI.sync.rep, hI.sync.len, hinv⟩, fun i x hx => ?_, fun x => ?_, fun x hx => ?_, fun x v hx => ?_⟩
      · have hi := (List.getElem?_eq_some_iff.1 hx).1
        have h1 : (A1 0 i).isSome ↔ (A 0 i).isSome ∨ i ∈ proof.sorted ∨ i ^^^ 1 ∈ proof.sorted := by
          rw [← mem_Vn_zero ha.sane hi]
          constructor
          · intro h1
            obtain ⟨a, ha1⟩ := Option.isSome_iff_exists.1 h1
            cases h2 : A 0 i with
            | some b => exact .inl rfl
            | none => exact .inr (ha.new 0 i a ha1 h2)
          · rintro (h1 | h1)
            · obtain ⟨a, ha1⟩ := Option.isSome_iff_exists.1 h1
              rw [ha.ext 0 i a ha1]; rfl
            · exact ha.pres 0 i h1
        have h2 : x ∈ hs ↔ i ∈ proof.sorted := by
          rw [hmem]
          constructor
          · rintro ⟨t, ht, e⟩
            rwa [get_inj hnd hx e]
          · intro h; exact ⟨i, h, hx⟩
        have h3 : (beside L x).any (fun g => decide (g ∈ hs)) = true ↔ i ^^^ 1 ∈ proof.sorted := by
          rw [beside_eq hnd hx]
          constructor
          · intro h
            cases hg : L[i ^^^ 1]? with
            | none => rw [hg] at h; simp at h
            | some g =>
              rw [hg] at h
              simp only [Option.any_some, decide_eq_true_eq] at h
              obtain ⟨t, ht, e⟩ := (hmem g).1 h
              rwa [get_inj hnd hg e]
          · intro h
            have hlt := ha.sane.lt _ h
            obtain ⟨g, hg⟩ : ∃ g, L[i ^^^ 1]? = some g := ⟨_, List.getElem?_eq_getElem hlt⟩
            rw [hg]
            simp only [Option.any_some, decide_eq_true_eq]
            exact (hmem g).2 ⟨_, h, hg⟩
        rw [h1, hI.seen i x hx]
        simp only [Memo.verify, Bool.or_eq_true, decide_eq_true_eq, h2, h3, or_assoc]
      · simp only [Memo.verify]
        split
        · rename_i hx
          obtain ⟨t, ht, e⟩ := (hmem x).1 hx
          rw [hnew t ht x e, idx_eq hnd e]
        · rename_i hx
          rw [hold x hx, hI.pos]
      · simp only [Memo.verify] at hx
        split at hx
        · rename_i hx'
          obtain ⟨t, ht, e⟩ := (hmem x).1 hx'
          exact List.mem_of_getElem? e
        · exact hI.dom x hx
      · simp only [Memo.verify] at hx
        split at hx
        · rename_i hx'
          obtain ⟨t, ht, e⟩ := (hmem x).1 hx'
          rw [idx_eq hnd e] at hx
          obtain rfl := Option.some.inj hx
          have := (List.getElem?_eq_some_iff.1 e).1
          have := hI.sync.len
          omega
        · exact hI.bnd x v hx
  | @refused F st p p' L proof hs m _ hrep hver ih =>
    obtain ⟨ihH, L0, A, hI⟩ := ih
    obtain rfl := hrep.unique hI.sync.rep
    refine ⟨Held.conv (.refused (new := fun y => !m.held y && (beside L y).all m.seen) ihH hrep hver (fun x hx => ?_))
      (fun x => by simp [Memo.refused]), ?_⟩
    · rw [Bool.and_eq_true, hI.near hx]
      simp
    rcases verify_ok hI.sync.inv hI.sync.len proof hs with ⟨e, -⟩ | ⟨e, -⟩ | ⟨e, -⟩ | ⟨s', e, -, hpm, hs', hk, -⟩ | ⟨s', A1, e, -⟩ <;> rw [e] at hver
    · obtain rfl : p = p' := by simpa using hver
      exact ⟨L, A, hI.sync, hI.seen, hI.pos, hI.dom, hI.bnd⟩
    · simp at hver
    · simp at hver
    · obtain rfl : s' = p' := by simpa using hver
      exact ⟨L, A, ⟨hI.sync.run, hI.sync.rep, hI.sync.len, hs'⟩, hI.seen, by rw [hpm]; exact hI.pos, hI.dom, hI.bnd⟩
    · simp at hver
  | @prune F st p p' L m _ hrep hp ih =>
    obtain ⟨ihH, L0, A, hI⟩ := ih
    refine ⟨Held.conv (.prune ihH hp) (fun x => by simp [Memo.prune, Memo.roots]), ?_⟩
    obtain rfl := hrep.unique hI.sync.rep
    obtain ⟨s', e, h1, -, h3⟩ := pruneAll_ok hI.sync.inv hI.sync.len
    rw [e] at hp
    obtain rfl := Except.ok.inj hp
    refine ⟨L, _, ⟨hI.sync.run, hI.sync.rep, hI.sync.len, h1⟩, fun i x hx => ?_, by rw [h3]; exact hI.pos, hI.dom, hI.bnd⟩
    show _ ↔ (Memo.roots L).seen x = true
    rw [← lone_iff hI.sync.nodup hx]
    unfold rootsOnly
    split
    · rename_i hr
      exact iff_of_true (hI.sync.inv.ph.shape.root 0 i hr) hr
    · rename_i hr
      exact iff_of_false (by simp) hr
  | @rejected F st p p' leaves targets b m _ hns hm ih =>
    rw [modify_insane _ _ _ hns] at hm
    obtain ⟨-, rfl⟩ : false = b ∧ p = p' := by simpa using hm
    exact ih
  | @reopen F F' st st' p m _ ho hp hb ih =>
    obtain ⟨ihH, L, A, hI⟩ := ih
    refine ⟨.reopen ihH ho hp hb, ?_⟩
    have hrun := Ram.Run.reopen hI.sync.run ho hp hb
    obtain ⟨n, f, h1, h2, -⟩ := hI.sync.run.inv
    obtain ⟨s', k1, k2, k3⟩ := Ram.reopen_ok h1 h2
    rw [k1] at ho
    obtain rfl := Except.ok.inj ho
    have e := hI.sync.rep.unique (h1.represents h2)
    refine ⟨L, A, ⟨hrun, ?_, hI.sync.len, hI.sync.inv⟩, hI.seen, hI.pos, hI.dom, hI.bnd⟩
    rw [e]
    exact k2.represents h2
  | @copied F st p p' leaves m _ hk hm ih =>
    obtain ⟨ihH, L, A, hI⟩ := ih
    exact ⟨.copied ihH hk hm, L, A, (hI.sync.copied hk hm).1, hI.seen, hI.pos, hI.dom, hI.bnd⟩

theorem _root_.Utreexo.Recorded.held {F : RamForest H} {st : List (UndoBatch H × RamForest H)} {p : Pollard H} {m : Memo H}
    (h : Recorded F st p m) : Held F st p (fun x => m.held x = true) := h.all.1

theorem _root_.Utreexo.Recorded.inv {F : RamForest H} {st : List (UndoBatch H × RamForest H)} {p : Pollard H} {m : Memo H}
    (h : Recorded F st p m) : ∃ L A, RInv F st p L A m := h.all.2

end Pol

open Pol

/-- C30: what a pollard records about its leaves after any history is what the memo says: the position map has exactly the memo's
positions, a leaf can be read exactly if the memo has it as readable, and the remembered leaves are counted. -/
theorem C30_record (F : RamForest H) (st : List (UndoBatch H × RamForest H)) (p : Pollard H) (m : Memo H) (h : Recorded F st p m)
    (L : List H) (hL : Ram.Represents F L) :
    (∀ x, PosMap.find p.posmap x = m.pos x) ∧
      (∀ i x, L[i]? = some x → Pol.read p i = .ok (if m.seen x then some x else none)) ∧
      numCachedLeaves p = (L.filter m.held).length := by
  obtain ⟨L0, A, hI⟩ := h.inv
  obtain rfl := hL.unique hI.sync.rep
  refine ⟨hI.pos, ?_, ?_⟩
  · exact fun i x hx => hI.read hx
  · obtain ⟨L1, A1, hH⟩ := h.held.inv
    obtain rfl := hL.unique hH.sync.rep
    refine C42_held F st p _ h.held _ (hI.sync.nodup.filter _) (fun x => ?_)
    rw [List.mem_filter]
    exact ⟨fun h => h.2, fun h => ⟨hH.sub x h, h⟩⟩

/-- C30, exactly: remembered leaves can be proved, and with the forest's own proof, exactly if the memo has the right position of
each of them. Every other answer differs from the forest's. -/
theorem C30_exact (F : RamForest H) (st : List (UndoBatch H × RamForest H)) (p : Pollard H) (m : Memo H) (h : Recorded F st p m)
    (L : List H) (hL : Ram.Represents F L) (q : List H) (hnd : q.Nodup) (hq : ∀ x ∈ q, m.held x = true) :
    ∃ proof, Acc.prove Ram.vt F q = .ok (some proof) ∧
      (Acc.prove Pol.vt p q = .ok (some proof) ↔ ∀ x ∈ q, m.pos x = some (L.idxOf x)) := by
  obtain ⟨L0, A, hI⟩ := h.inv
  obtain rfl := hL.unique hI.sync.rep
  obtain ⟨L1, A1, hH⟩ := h.held.inv
  obtain rfl := hL.unique hH.sync.rep
  obtain rfl := hI.sync.inv.addr_unique hH.sync.inv hI.sync.len
  have hndL := hI.sync.nodup
  obtain ⟨r, e1, e2, e3⟩ := C22_prove F st hI.sync.run L hL q
  obtain ⟨proof, rfl⟩ := Option.isSome_iff_exists.1 (e2.2 ⟨hnd, fun x hx => hH.sub x (hq x hx)⟩)
  obtain ⟨g1, -⟩ := e3 proof rfl
  refine ⟨proof, e1, ?_, ?_⟩
  · intro hp x hx
    obtain ⟨r', f1, -, f3⟩ := C60_prove F st p h.held.sync L hL q
    rw [hp] at f1
    obtain ⟨w1, -⟩ := f3 proof (Except.ok.inj f1).symm
    obtain ⟨k, hk⟩ := List.mem_iff_getElem?.1 hx
    have a1 := congrArg (fun l : List (Option ℕ) => l[k]?) w1
    have a2 := congrArg (fun l : List (Option H) => l[k]?) g1
    simp only [List.getElem?_map, hk, Option.map_some] at a1 a2
    cases ht : proof.targets[k]? with
    | none => rw [ht] at a1; simp at a1
    | some t =>
      rw [ht] at a1 a2
      simp only [Option.map_some, Option.some.injEq] at a1 a2
      rw [← hI.pos x, a1, idx_eq hndL a2]
  · intro hp
    rw [hI.sync.prove_eq q (fun x hx => ?_), e1]
    obtain ⟨i, hi⟩ := List.mem_iff_getElem?.1 (hH.sub x (hq x hx))
    exact ⟨i, hi, by rw [hI.pos, hp x hx, idx_eq hndL hi], (hH.flag i x hi).2 (hq x hx)⟩

/-- C30, a rejected proof: it changes no position and nothing that can be read. It may make the pollard remember leaves: if there are
`k` more of them afterwards, they are the first `k` targets that were not remembered and have no neighbour or one that can be read. -/
theorem C30_refused (F : RamForest H) (st : List (UndoBatch H × RamForest H)) (p p' : Pollard H) (m : Memo H) (h : Recorded F st p m)
    (L : List H) (hL : Ram.Represents F L) (proof : BatchProof H) (hs : List H) (hv : Pol.verify p proof hs = .ok (false, p')) :
    ∃ k, numCachedLeaves p' = numCachedLeaves p + k ∧ Recorded F st p' (m.refused L proof.sorted k) ∧
      (∀ x, PosMap.find p'.posmap x = PosMap.find p.posmap x) ∧ ∀ i, i < L.length → Pol.read p' i = Pol.read p i := by
  have h' := Recorded.refused h hL hv
  obtain ⟨a1, a2, a3⟩ := C30_record F st p m h L hL
  obtain ⟨b1, b2, b3⟩ := C30_record F st p' _ h' L hL
  have hle : numCachedLeaves p ≤ numCachedLeaves p' := by
    rw [a3, b3]
    refine (List.monotone_filter_right L fun x hx => ?_).length_le
    simp [Memo.refused, hx]
  refine ⟨numCachedLeaves p' - numCachedLeaves p, by omega, h', fun x => by rw [a1, b1]; rfl, fun i hi => ?_⟩
  have hx : L[i]? = some L[i] := List.getElem?_eq_getElem hi
  rw [a2 i _ hx, b2 i _ hx]
  rfl

/-- C30, one block: the position recorded for a leaf, right before the block, is right afterwards exactly if the leaf is kept
readable by the removal or the bottom row's exchanges alone take it to its place. -/
theorem C30_block (F F' : RamForest H) (st : List (UndoBatch H × RamForest H)) (u : UndoBatch H) (p p1 p2 : Pollard H) (L L' : List H)
    (V : H → Prop) (D : List ℕ) (leaves leaves' : List (Leaf H)) (m : Memo H) (h : Recorded F st p1 m) (h1 : Sync F st p)
    (hL : Ram.Represents F L) (h2 : Verifies L p V p1) (hv : Ram.Valid L (leaves.map Prod.fst) D)
    (hl : leaves'.map Prod.fst = leaves.map Prod.fst) (h3 : Deletable L V p1 D)
    (h4 : Ram.modify F leaves D = .ok (true, some u, F')) (h5 : Pol.modify p1 leaves' D = .ok (true, p2)) (hL' : Ram.Represents F' L')
    (x : H) (hx : x ∈ survivors L D) (hr : PosMap.find p1.posmap x = some (L.idxOf x)) :
    PosMap.find p2.posmap x = some (L'.idxOf x) ↔
      m.kept L (L'.take (L.length - D.length)) x = true ∨
        ∃ g, beside (L'.take (L.length - D.length)) x = some g ∧ firstMove (L.idxOf x) (L.idxOf g) = L'.idxOf x := by
  obtain ⟨L0, A, hI⟩ := h.inv
  obtain rfl := hL.unique hI.sync.rep
  have hfin := Recorded.later h h1 hL h2 hv hl h3 h4 h5 hL'
  obtain ⟨L2, A2, hI2⟩ := hfin.inv
  obtain rfl := hL'.unique hI2.sync.rep
  have hmod : Modified L (leaves.map Prod.fst) D L' := by
    obtain ⟨u', G, L2, q1, -, q3, q4⟩ := C18_modify F st hI.sync.run L hL leaves D hv
    rw [h4] at q1
    simp only [Except.ok.injEq, Prod.mk.injEq, Option.some.injEq, true_and] at q1
    obtain ⟨rfl, rfl⟩ := q1
    obtain rfl := hL'.unique q3
    exact q4
  obtain ⟨hM1, hM2⟩ := take_modified hI.sync.len hv hmod
  have hnd2 := hI2.sync.nodup
  set M := L'.take (L.length - D.length) with hM
  have hxM : x ∈ M := hM1.mem_iff.2 hx
  have hxa : (x, true) ∉ leaves' := by
    intro hc
    have h1 : x ∈ leaves.map Prod.fst := by rw [← hl]; exact List.mem_map_of_mem (f := Prod.fst) hc
    rw [hM2, List.nodup_append] at hnd2
    exact hnd2.2.2 x hxM x h1 rfl
  have hidx : L'.idxOf x = M.idxOf x := by
    rw [hM2, List.idxOf_append_of_mem hxM]
  have hb1 : L.idxOf x < 2 ^ 64 := by
    obtain ⟨i, hi, -⟩ := mem_survivors.1 hx
    have := (List.getElem?_eq_some_iff.1 hi).1
    have := hI.sync.len
    rw [idx_eq hI.sync.nodup hi]
    omega
  have hlenM : M.length ≤ 2 ^ 62 := by
    have := hI2.sync.len
    have h6 : M.length ≤ L'.length := List.length_take_le' _ _
    omega
  have hb2 : M.idxOf x < 2 ^ 64 := by
    have := List.idxOf_lt_length_of_mem hxM
    omega
  rw [hI2.pos x, hidx]
  rw [hI.pos x] at hr
  simp only [Memo.block]
  rw [if_neg hxa, ← hM, if_pos hxM, hr, Option.map_some, Option.some.injEq]
  have hsh : ∀ b, b < 2 ^ 64 → shifted (L.idxOf x) b (L.idxOf x) = b := by
    intro b hb
    unfold shifted
    omega
  unfold Memo.moved
  by_cases hk : m.kept L M x = true
  · rw [if_pos hk, hsh _ hb2]
    exact iff_of_true rfl (.inl hk)
  · rw [if_neg hk]
    cases hb : beside M x with
    | none =>
      exfalso
      apply hk
      unfold Memo.kept
      rw [hb]
    | some g =>
      simp only
      have hg : g ∈ M := by
        unfold beside at hb
        rw [if_pos hxM] at hb
        exact List.mem_of_getElem? hb
      obtain ⟨k, e1, -⟩ := mem_survivors.1 (hM1.mem_iff.1 hg)
      have hb3 : firstMove (L.idxOf x) (L.idxOf g) < 2 ^ 64 := by
        rw [idx_eq hI.sync.nodup e1]
        have h7 := (List.getElem?_eq_some_iff.1 e1).1
        have := hI.sync.len
        unfold firstMove
        have h8 := xor_one_cases k
        split
        · exact hb1
        · split at h8 <;> omega
      rw [hsh _ hb3]
      simp [hk]

namespace Pol

theorem _root_.Utreexo.Spec.Memo.ext' {m m' : Memo H} (h1 : ∀ x, m.held x = m'.held x) (h2 : ∀ x, m.seen x = m'.seen x)
    (h3 : ∀ x, m.pos x = m'.pos x) : m = m' := by
  obtain ⟨a, b, c⟩ := m
  obtain ⟨a', b', c'⟩ := m'
  obtain rfl : a = a' := funext h1
  obtain rfl : b = b' := funext h2
  obtain rfl : c = c' := funext h3
  rfl

/-- The leaves and the memo after a block. -/
def memoBlock (s : List H × Memo H) (b : Block H) : List H × Memo H :=
  (afterBlock s.1 b, (s.2.verify s.1 b.dels).block s.1 (positions s.1 b.dels).length (b.adds.map fun a => (a.1, a.2.2)) (afterBlock s.1 b))

theorem play_memo : ∀ (bs : List (Block H)) (S L : List H) (m : Memo H) (F : RamForest H) (st : List (UndoBatch H × RamForest H))
    (p : Pollard H), Recorded F st p m → Ram.Represents F L → L.Perm S → ValidBlocks S bs →
    ∃ F' st' p', play bs F p = .ok (F', p') ∧ Recorded F' st' p' (bs.foldl memoBlock (L, m)).2 ∧
      Ram.Represents F' (bs.foldl memoBlock (L, m)).1 := by
  intro bs
  induction bs with
  | nil => intro S L m F st p h hL hS _; exact ⟨F, st, p, rfl, h, hL⟩
  | cons b bs ih =>
    rintro S L m F st p h hL hS ⟨h1, h2, h3, h4, h5, h6, h7⟩
    obtain ⟨F1, u1, p1, L1, e1, -, e3, e4, proof, hs, q, ha⟩ := play_step h.held.sync hL hS h1 h2 h3 h4 h5 h6
    obtain ⟨L0, A, hI⟩ := h.inv
    obtain rfl := hL.unique hI.sync.rep
    have hnd := hI.sync.nodup
    obtain ⟨u, F2, g1, -, g3⟩ := C56_order F st hI.sync.run L hL _ _ ha.valid
    rw [ha.forest] at g1
    injection g1 with g1
    simp only [Prod.mk.injEq, true_and] at g1
    obtain ⟨-, rfl⟩ := g1
    have hA : ((b.adds.map fun a => (a.1, a.2.1)).map Prod.fst) = b.adds.map Prod.fst := by rw [List.map_map]; rfl
    have hso := ha.sorted_eq hnd
    rw [hso, hA] at g3
    have e5 : L1 = afterBlock L b := e3.unique g3
    subst e5
    obtain ⟨d1, d2, d3⟩ := hI.sync.deletable ha.nil ha.ver ha.coll
    have hR := Recorded.later (h.verify hL ha.ver ha.coll) h.held.sync hL d1 ha.valid (by simp [Function.comp_def]) d2 ha.forest ha.pollard e3
    have hdel : ∀ x, x ∈ hs ↔ x ∈ b.dels := by
      intro x
      rw [d3, hso]
      unfold positions
      simp only [List.mem_filter, List.mem_range]
      constructor
      · rintro ⟨t, ⟨-, ht⟩, e⟩
        rw [e] at ht
        simpa using ht
      · intro hx
        obtain ⟨t, ht⟩ := List.mem_iff_getElem?.1 (hS.mem_iff.2 (h2 x hx))
        exact ⟨t, ⟨(List.getElem?_eq_some_iff.1 ht).1, by rw [ht]; simpa using hx⟩, ht⟩
    have hm : m.verify L hs = m.verify L b.dels := by
      apply Memo.ext' <;> intro x <;> simp only [Memo.verify, hdel]
    rw [hm, hso] at hR
    obtain ⟨F', st', p', k1, k2, k3⟩ := ih _ _ _ _ _ _ hR e3 e4 h7
    refine ⟨F', st', p', ?_, k2, k3⟩
    rw [play, e1, ok_bind]; exact k1

end Pol

/-- C30 for every history of valid blocks, each with the forest's proof of its deletions: which remembered leaves can be proved is a
computable function of the blocks alone. -/
theorem C30_history (bs : List (Block H)) (hv : ValidBlocks [] bs) :
    ∃ F p, play bs (Ram.mk 0) (Pol.mk 0) = .ok (F, p) ∧
      ∀ q : List H, q.Nodup → (∀ x ∈ q, (bs.foldl memoBlock ([], Memo.empty)).2.held x = true) →
        ∃ proof, Acc.prove Ram.vt F q = .ok (some proof) ∧
          (Acc.prove Pol.vt p q = .ok (some proof) ↔
            ∀ x ∈ q, (bs.foldl memoBlock ([], Memo.empty)).2.pos x = some ((bs.foldl memoBlock ([], Memo.empty)).1.idxOf x)) := by
  obtain ⟨F, st, p, e1, e2, e3⟩ := play_memo bs [] [] Memo.empty _ _ _ Recorded.empty
    (Ram.mk_inv.represents (f := leafFn HashOps.zero []) (by omega)) (List.Perm.refl _) hv
  exact ⟨F, p, e1, fun q hnd hq => C30_exact F st p _ e2 _ e3 q hnd hq⟩

/-! ## Concrete cases -/

section Examples

attribute [local instance] toyOps

/-- What the memo has about a leaf after some blocks: remembered, readable, recorded position, position. -/
def memoOf (bs : List (Block ℕ)) (x : ℕ) : Bool × Bool × Option ℕ × ℕ :=
  let s := bs.foldl memoBlock ([], Memo.empty)
  (s.2.held x, s.2.seen x, s.2.pos x, s.1.idxOf x)

/-- The history of `C30_false`: the second block makes leaf 13 the neighbour of a leaf that is not remembered, and it is no longer
readable; in the third it moves from position 2 to 0 and its record stays. -/
def staleBlocks : List (Block ℕ) :=
  [{ adds := [(11, false, false), (12, false, false), (13, false, true), (14, false, false), (15, false, false)], dels := [] },
   { adds := [], dels := [14] }, { adds := [], dels := [11] }]

example : ValidBlocks [] staleBlocks := by
  refine ⟨by decide, by decide, by decide, by decide, by decide, by decide,
    by decide, by decide, by decide, by decide, by decide, by decide,
    by decide, by decide, by decide, by decide, by decide, by decide, trivial⟩

example : (memoOf (staleBlocks.take 1) 13, memoOf (staleBlocks.take 2) 13, memoOf staleBlocks 13) =
    ((true, true, some 2, 2), (true, false, some 2, 2), (true, false, some 2, 0)) := by decide +kernel

/-- Leaf 13 is remembered and none of its neighbours ever is; it moves twice and its record follows. This history is not one of
`C30_partial`. -/
def aloneBlocks : List (Block ℕ) :=
  [{ adds := [(11, false, false), (12, false, false), (14, false, false), (13, false, true)], dels := [] },
   { adds := [], dels := [14] }, { adds := [], dels := [12] }]

example : ValidBlocks [] aloneBlocks := by
  refine ⟨by decide, by decide, by decide, by decide, by decide, by decide,
    by decide, by decide, by decide, by decide, by decide, by decide,
    by decide, by decide, by decide, by decide, by decide, by decide, trivial⟩

example : (memoOf (aloneBlocks.take 1) 13, memoOf (aloneBlocks.take 2) 13, memoOf aloneBlocks 13) =
    ((true, true, some 3, 3), (true, true, some 2, 2), (true, false, some 1, 1)) := by decide +kernel

example : toyAfter aloneBlocks (fun F p => do
      return ((← Acc.prove Ram.vt F [13]), (← Acc.prove Pol.vt p [13]), ← Pol.read p 1)) =
    .ok (some { targets := [1], sorted := [1], hashes := [11] }, some { targets := [1], sorted := [1], hashes := [11] }, none) := by
  decide +kernel

/-- Four leaves, the first of them remembered. -/
def firstOfFour : Block ℕ :=
  { adds := [(11, false, true), (12, false, false), (13, false, false), (14, false, false)], dels := [] }

/-- A rejected proof of two leaves makes the pollard remember the first of them, whose neighbour it can read. -/
example : toyAfter [firstOfFour] (fun _ p => do
      let (b, p') ← Pol.verify p (BatchProof.mk' [1, 2] [14]) [12, 99]
      return (b, numCachedLeaves p, numCachedLeaves p')) = .ok (false, 1, 2) := by decide +kernel

example : let s := [firstOfFour].foldl memoBlock ([], Memo.empty)
    ([11, 12, 13, 14].map s.2.held, [11, 12, 13, 14].map (s.2.refused s.1 [1, 2] 1).held) =
      ([true, false, false, false], [true, true, false, false]) := by decide +kernel

end Examples

end Utreexo
