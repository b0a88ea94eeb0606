import Verif.Props.Pollard
import Verif.Proof.PolAnswer

/-!
# The order of the hashes

C68: `Prove` takes the hashes in any order and makes the same proof; `Pollard::Verify` takes them in the order of their positions
and in no other.
-/

set_option linter.unusedSectionVars false

namespace Utreexo
open Spec Equiv

variable {H : Type} [DecidableEq H] [HashOps H]

/-- Positions are determined by the leaves there. -/
theorem positions_inj {L : List H} (hn : L.Nodup) : ∀ {ts us : List ℕ} {hs : List H}, ts.map (fun t => L[t]?) = hs.map some →
    us.map (fun t => L[t]?) = hs.map some → ts = us
  | [], [], _, _, _ => rfl
  | [], u :: us, hs, h1, h2 => by rw [← h1] at h2; simp at h2
  | t :: ts, [], hs, h1, h2 => by rw [← h2] at h1; simp at h1
  | t :: ts, u :: us, [], h1, _ => by simp at h1
  | t :: ts, u :: us, h :: hs, h1, h2 => by
    simp only [List.map_cons, List.cons.injEq] at h1 h2
    rw [positions_inj hn h1.2 h2.2]
    congr 1
    have h3 := h1.1
    have h4 := h2.1
    have hlt : t < L.length := by
      by_contra hc
      rw [List.getElem?_eq_none (by omega)] at h3; cases h3
    exact (List.getElem?_inj hlt hn).1 (h3.trans h4.symm)

/-- The leaves of a reachable forest are distinct. -/
theorem nodup_of_run {F : RamForest H} {st : List (UndoBatch H × RamForest H)} (hr : Ram.Run F st) {L : List H}
    (hL : Ram.Represents F L) : L.Nodup := by
  obtain ⟨L', h1, h2, -⟩ := C16_represents F st hr
  rwa [hL.unique h1]

open Pol

/-- C68: a proof made by `Prove` for some leaves, in whatever order they were given, is accepted with the hashes in the order of the
positions and, collisions of the parent hash aside, with nothing else. -/
theorem C68_order (F : RamForest H) (st : List (UndoBatch H × RamForest H)) (p : Pollard H) (h : Sync F st p) (L : List H)
    (hL : Ram.Represents F L) (hashes : List H) (proof : BatchProof H) (hp : Acc.prove Ram.vt F hashes = .ok (some proof))
    (hs : List H) : (∃ p', verify p proof hs = .ok (true, p') ∧ ¬ Collision p' L) ↔
      hs.map some = proof.sorted.map fun t => L[t]? := by
  constructor
  · rintro ⟨p', h1, h2⟩
    obtain ⟨h3, h4 | h4 | h4⟩ := C25_sound F st p h L hL proof hs p' h1
    · obtain ⟨L0, A, hI⟩ := h.inv
      obtain ⟨r, e1, -, e3⟩ := C22_prove F st hI.run L hL hashes
      rw [hp] at e1
      obtain ⟨-, -, g3, -⟩ := e3 proof (Except.ok.inj e1).symm
      rw [h4] at g3 h3
      rw [List.perm_nil.1 g3, List.length_eq_zero_iff.1 h3]
      rfl
    · exact h4.2
    · exact absurd h4 h2
  · intro hhs
    obtain ⟨p', h1, h2, -⟩ := C24_complete F st p h L hL hashes proof hp hs hhs
    exact ⟨p', h1, h2⟩

/-- C68: with any other hashes `Verify` answers and returns false, or there is a collision. -/
theorem C68_other (F : RamForest H) (st : List (UndoBatch H × RamForest H)) (p : Pollard H) (h : Sync F st p) (L : List H)
    (hL : Ram.Represents F L) (hashes : List H) (proof : BatchProof H) (hp : Acc.prove Ram.vt F hashes = .ok (some proof))
    (hs : List H) (ho : hs.map some ≠ proof.sorted.map fun t => L[t]?) :
    ∃ b p', verify p proof hs = .ok (b, p') ∧ (b = true → Collision p' L) := by
  obtain ⟨L0, A, hI⟩ := h.inv
  obtain rfl := hL.unique hI.rep
  obtain ⟨r, e1, -, e3⟩ := C22_prove F st hI.run L hL hashes
  rw [hp] at e1
  obtain ⟨g1, g2, g3, -⟩ := e3 proof (Except.ok.inj e1).symm
  have hlt : ∀ t ∈ proof.sorted, t < L.length := by
    intro t ht
    have : L[t]? ∈ hashes.map some := by rw [← g1]; exact List.mem_map_of_mem (g3.mem_iff.1 ht)
    obtain ⟨x, -, hx⟩ := List.mem_map.1 this
    by_contra hc
    rw [List.getElem?_eq_none (by omega)] at hx; cases hx
  have hh : (proof.sorted.map (leafFn HashOps.zero L)).map some = proof.sorted.map fun t => L[t]? := by
    rw [List.map_map]
    apply List.map_congr_left
    intro t ht
    exact (leafFn_get.2 ⟨hlt t ht, rfl⟩).symm
  obtain ⟨p1, k1, -⟩ := C24_complete F st p h L hL hashes proof hp _ hh
  obtain ⟨b, p', k2⟩ := verify_answers hI.inv hI.len proof hs _ (by rw [List.length_map, g3.length_eq]) k1
  refine ⟨b, p', k2, ?_⟩
  rintro rfl
  by_contra hc
  exact ho ((C68_order F st p h L hL hashes proof hp hs).1 ⟨p', k2, hc⟩)

/-- C68: so the hashes given to `Prove` can be given to `Verify` as they are exactly if they are in the order of their positions. -/
theorem C68_same (F : RamForest H) (st : List (UndoBatch H × RamForest H)) (p : Pollard H) (h : Sync F st p) (L : List H)
    (hL : Ram.Represents F L) (hashes : List H) (proof : BatchProof H) (hp : Acc.prove Ram.vt F hashes = .ok (some proof)) :
    (∃ p', verify p proof hashes = .ok (true, p') ∧ ¬ Collision p' L) ↔
      ∀ i j a b : ℕ, i < j → hashes[i]? = L[a]? → a < L.length → hashes[j]? = L[b]? → b < L.length → a < b := by
  obtain ⟨L0, A, hI⟩ := h.inv
  obtain rfl := hL.unique hI.rep
  obtain ⟨r, e1, -, e3⟩ := C22_prove F st hI.run L hL hashes
  rw [hp] at e1
  obtain ⟨g1, g2, g3, -⟩ := e3 proof (Except.ok.inj e1).symm
  have hnd : L.Nodup := nodup_of_run hI.run hL
  rw [C68_order F st p h L hL hashes proof hp hashes]
  have e : (hashes.map some = proof.sorted.map fun t => L[t]?) ↔ proof.targets.Pairwise (· < ·) := by
    constructor
    · intro hh
      rw [positions_inj hnd g1 hh.symm]
      exact g2
    · intro hs
      have : proof.sorted = proof.targets := List.Perm.eq_of_pairwise (fun a b _ _ h1 h2 => by omega) g2 hs g3
      rw [this, g1]
  rw [e, List.pairwise_iff_getElem]
  have at_ : ∀ i (hi : i < proof.targets.length), L[proof.targets[i]]? = hashes[i]? ∧ proof.targets[i] < L.length := by
    intro i hi
    have h1 : (proof.targets.map fun t => L[t]?)[i]? = (hashes.map some)[i]? := by rw [g1]
    rw [List.getElem?_map, List.getElem?_map, List.getElem?_eq_getElem hi] at h1
    cases h2 : hashes[i]? with
    | none => rw [h2] at h1; cases h1
    | some x =>
      rw [h2] at h1
      have h3 : L[proof.targets[i]]? = some x := Option.some.inj h1
      refine ⟨h3, ?_⟩
      by_contra hc
      rw [List.getElem?_eq_none (by omega)] at h3; cases h3
  have hlen : proof.targets.length = hashes.length := by simpa using congrArg List.length g1
  constructor
  · intro hs i j a b hij ha ha' hb hb'
    have hj : j < proof.targets.length := by
      rw [hlen]
      by_contra hc
      rw [List.getElem?_eq_none (by omega)] at hb
      rw [List.getElem?_eq_getElem hb'] at hb; cases hb
    have h1 := hs i j (by omega) hj hij
    have e1 : proof.targets[i] = a := (List.getElem?_inj (at_ i (by omega)).2 hnd).1 ((at_ i (by omega)).1.trans ha)
    have e2 : proof.targets[j] = b := (List.getElem?_inj (at_ j hj).2 hnd).1 ((at_ j hj).1.trans hb)
    rwa [e1, e2] at h1
  · intro hs i j hi hj hij
    exact hs i j _ _ hij (at_ i hi).1.symm (at_ i hi).2 (at_ j hj).1.symm (at_ j hj).2

/-- C68: what `Prove` makes for the same leaves in another order has the same hashes and the same sorted targets. -/
theorem C68_prove (F : RamForest H) (st : List (UndoBatch H × RamForest H)) (hr : Ram.Run F st) (L : List H)
    (hL : Ram.Represents F L) (hashes hashes' : List H) (hp : hashes'.Perm hashes) (proof : BatchProof H)
    (h : Acc.prove Ram.vt F hashes = .ok (some proof)) :
    ∃ proof', Acc.prove Ram.vt F hashes' = .ok (some proof') ∧ proof'.sorted = proof.sorted ∧ proof'.hashes = proof.hashes ∧
      proof'.targets.Perm proof.targets := by
  obtain ⟨r, e1, e2, e3⟩ := C22_prove F st hr L hL hashes
  obtain ⟨r', f1, f2, f3⟩ := C22_prove F st hr L hL hashes'
  rw [h] at e1
  obtain rfl := Except.ok.inj e1
  have h1 := e2.1 rfl
  have h2 : r'.isSome := f2.2 ⟨hp.nodup_iff.2 h1.1, fun x hx => h1.2 x (hp.mem_iff.1 hx)⟩
  obtain ⟨proof', rfl⟩ := Option.isSome_iff_exists.1 h2
  obtain ⟨a1, a2, a3, N, a4, a5, a6⟩ := e3 proof rfl
  obtain ⟨b1, b2, b3, N', b4, b5, b6⟩ := f3 proof' rfl
  have hnd : L.Nodup := nodup_of_run hr hL
  have hmem : ∀ t, t ∈ proof'.targets ↔ t ∈ proof.targets := by
    have key : ∀ (hs : List H) (ts : List ℕ), ts.map (fun t => L[t]?) = hs.map some → ∀ t, t ∈ ts ↔ ∃ x ∈ hs, L[t]? = some x := by
      intro hs ts he t
      constructor
      · intro ht
        have : L[t]? ∈ hs.map some := by rw [← he]; exact List.mem_map_of_mem ht
        obtain ⟨x, hx, e⟩ := List.mem_map.1 this
        exact ⟨x, hx, e.symm⟩
      · rintro ⟨x, hx, e⟩
        have : some x ∈ ts.map fun t => L[t]? := by rw [he]; exact List.mem_map_of_mem hx
        obtain ⟨u, hu, e'⟩ := List.mem_map.1 this
        have hlt : t < L.length := by
          by_contra hc
          rw [List.getElem?_eq_none (by omega)] at e; cases e
        rw [(List.getElem?_inj hlt hnd).1 (e.trans e'.symm)]
        exact hu
    intro t
    rw [key hashes proof.targets a1, key hashes' proof'.targets b1]
    simp only [hp.mem_iff]
  have hs : proof'.sorted = proof.sorted := by
    refine List.Perm.eq_of_pairwise (fun a b _ _ h1 h2 => by omega) b2 a2 ?_
    rw [List.perm_ext_iff_of_nodup (b2.imp fun h => by omega) (a2.imp fun h => by omega)]
    intro t
    rw [b3.mem_iff, a3.mem_iff, hmem]
  have hN : N' = N := by
    refine List.Perm.eq_of_pairwise (fun a b _ _ h1 h2 => by omega) b4 a4 ?_
    rw [List.perm_ext_iff_of_nodup (b4.imp fun h => by rintro rfl; omega) (a4.imp fun h => by rintro rfl; omega)]
    rintro ⟨q, k⟩
    rw [b5, a5]
    unfold ProofNode
    simp only [hmem]
  refine ⟨proof', f1, hs, by rw [b6, a6, hN], ?_⟩
  exact (b3.symm.trans (hs ▸ List.Perm.refl _)).trans a3

/-- C68: there is exactly one arrangement of the leaves that `Verify` accepts without a collision, and it is an arrangement of the
hashes given to `Prove`. -/
theorem C68_one (F : RamForest H) (st : List (UndoBatch H × RamForest H)) (p : Pollard H) (h : Sync F st p) (L : List H)
    (hL : Ram.Represents F L) (hashes : List H) (proof : BatchProof H) (hp : Acc.prove Ram.vt F hashes = .ok (some proof)) :
    ∃ hs : List H, hs.Perm hashes ∧ ∀ hs', (∃ p', verify p proof hs' = .ok (true, p') ∧ ¬ Collision p' L) ↔ hs' = hs := by
  obtain ⟨L0, A, hI⟩ := h.inv
  obtain rfl := hL.unique hI.rep
  obtain ⟨r, e1, -, e3⟩ := C22_prove F st hI.run L hL hashes
  rw [hp] at e1
  obtain ⟨g1, g2, g3, -⟩ := e3 proof (Except.ok.inj e1).symm
  have hperm : (proof.sorted.map fun t => L[t]?).Perm (hashes.map some) := by rw [← g1]; exact g3.map _
  have hlt : ∀ t ∈ proof.sorted, t < L.length := by
    intro t ht
    obtain ⟨x, -, hx⟩ := List.mem_map.1 (hperm.mem_iff.1 (List.mem_map_of_mem (f := fun t => L[t]?) ht))
    by_contra hc
    rw [List.getElem?_eq_none (by omega)] at hx; cases hx
  have hh : (proof.sorted.map (leafFn HashOps.zero L)).map some = proof.sorted.map fun t => L[t]? := by
    rw [List.map_map]
    apply List.map_congr_left
    intro t ht
    exact (leafFn_get.2 ⟨hlt t ht, rfl⟩).symm
  refine ⟨proof.sorted.map (leafFn HashOps.zero L), ?_, ?_⟩
  · rw [← hh] at hperm
    have h1 := hperm.filterMap id
    simpa [List.filterMap_map] using h1
  · intro hs'
    rw [C68_order F st p h L hL hashes proof hp hs', ← hh]
    exact ⟨fun e => List.map_injective_iff.2 (Option.some_injective _) e, fun e => by rw [e]⟩

/-- C68: `RamForest::Verify` does not look at the order. -/
theorem C68_forest (F : RamForest H) (st : List (UndoBatch H × RamForest H)) (hr : Ram.Run F st) (hashes hashes' : List H)
    (hp : hashes'.Perm hashes) (proof proof' : BatchProof H) (h : Acc.prove Ram.vt F hashes = .ok (some proof)) :
    Ram.verify F proof' hashes' = true := by
  obtain ⟨L, hL, -⟩ := C16_represents F st hr
  obtain ⟨r, e1, e2, -⟩ := C22_prove F st hr L hL hashes
  rw [h] at e1
  obtain rfl := Except.ok.inj e1
  rw [C37_verify_partial F L hL]
  intro x hx
  exact (e2.1 rfl).2 x (hp.mem_iff.1 hx)

/-! ## Concrete cases -/

section Examples

attribute [local instance] toyOps

/-- The case of the test (src/test/accumulator_tests.cpp:314-319): three leaves are proved in the order 16, 12, 17. `Verify` accepts
them in the order of their positions 1, 5, 6 and rejects them in the order they were proved; the forest accepts both. -/
theorem C68_order_witness : toyAfter (toyBlocks.take 1) (fun F p => do
      match (← Acc.prove Ram.vt F [16, 12, 17]), (← Acc.prove Ram.vt F [12, 17, 16]) with
      | some pf, some pf' =>
        let a ← verify p pf [16, 12, 17]
        let b ← verify p pf [12, 16, 17]
        return ([a.1, b.1, Ram.verify F pf [16, 12, 17], Ram.verify F pf [12, 16, 17]], pf.targets, pf'.targets, pf.sorted,
          pf'.sorted == pf.sorted, pf.hashes == pf'.hashes)
      | _, _ => .error .exc) = .ok ([false, true, true, true], [5, 1, 6], [1, 6, 5], [1, 5, 6], true, true) := by decide +kernel

end Examples

end Utreexo
