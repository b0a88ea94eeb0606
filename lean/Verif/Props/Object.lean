import Verif.Model.Object
import Verif.Spec.Decode
import Verif.Props.Wire
import Verif.Props.File

/-!
# C12, C65: decoders on all inputs, and objects over several calls

C12, C14, C15 and C65.
-/

set_option linter.unusedSectionVars false

namespace Utreexo
namespace Object
open Spec Codec Batch

/-! ## What the loops read -/

theorem readPositions_words (big : Bool) (bytes : List Byte) : ∀ (k off : Nat),
    off + 4 * k ≤ bytes.length → off + 4 * k < 2147483648 →
    readPositions big bytes k off = .ok (words bytes off k, off + 4 * k) := by
  intro k
  induction k with
  | zero => intro off _ _; rfl
  | succ k ih =>
    intro off h1 h2
    have l4 : ((bytes.drop off).take 4).length = 4 := by simp; omega
    have v : (readBE32 big ((bytes.drop off).take 4)).toNat = word bytes off := by
      rw [readBE32_eq big _ l4, BitVec.toNat_ofNat, Nat.mod_eq_of_lt]
      · rfl
      · have := beValue_lt ((bytes.drop off).take 4); rw [l4] at this; exact this
    rw [readPositions, memRead_ok (by omega), ok_bind, addInt_ok (by omega), ok_bind, ih _ (by omega) (by omega), ok_bind]
    simp only [pure_ok, v]
    congr 2
    · unfold words
      rw [List.range_succ_eq_map, List.map_cons, List.map_map]
      congr 1
      apply List.map_congr_left
      intro j _
      simp only [Function.comp]
      congr 1
      omega
    · omega

theorem readHashes_chunks (bytes : List Byte) : ∀ (k off : Nat),
    off + 32 * k ≤ bytes.length → off + 32 * k < 2147483648 →
    ∃ hs, readHashes bytes k off = .ok (hs, off + 32 * k) ∧ hs.map (·.val) = chunks bytes off k := by
  intro k
  induction k with
  | zero => intro off _ _; exact ⟨[], rfl, rfl⟩
  | succ k ih =>
    intro off h1 h2
    obtain ⟨hs, e1, e2⟩ := ih (off + 32) (by omega) (by omega)
    refine ⟨⟨(bytes.drop off).take 32, by simp; omega⟩ :: hs, ?_, ?_⟩
    · rw [readHashes]
      unfold readHash
      rw [dif_pos (by omega), ok_bind, addInt_ok (by omega), ok_bind, e1, ok_bind]
      simp only [pure_ok]
      congr 2
      omega
    · rw [List.map_cons, e2]
      unfold chunks
      rw [List.range_succ_eq_map, List.map_cons, List.map_map]
      congr 1
      apply List.map_congr_left
      intro j _
      simp only [Function.comp]
      congr 2
      omega

theorem word_zero (bytes : List Byte) : word bytes 0 = beValue (bytes.take 4) := by unfold word; rw [List.drop_zero]

/-! ## C12: proofs -/

/-- C12, every input: an input that does not have the length of a proof with the numbers in its header is rejected and leaves the object
alone, whatever its length. One that has this length is accepted if it is shorter than `2^31` bytes, the targets are the words and the
hashes the 32-byte groups after the header; if it is longer the behaviour is undefined. -/
theorem _root_.Utreexo.C12_exact (big : Bool) (old : BatchProof Hash32) (bytes : List Byte) :
    (¬ ProofFits bytes → unserialize big old bytes = .ok (false, old)) ∧
    (ProofFits bytes → bytes.length < 2 ^ 31 →
      ∃ q, unserialize big old bytes = .ok (true, q) ∧ q.targets = words bytes 8 (word bytes 0) ∧
        q.hashes.map (·.val) = chunks bytes (8 + 4 * word bytes 0) (word bytes 4) ∧
        q.sorted.Pairwise (· ≤ ·) ∧ q.sorted.Perm (old.sorted ++ q.targets)) ∧
    (ProofFits bytes → 2 ^ 31 ≤ bytes.length → unserialize big old bytes = .error .ub) := by
  have hub : ProofFits bytes → 2 ^ 31 ≤ bytes.length → unserialize big old bytes = .error .ub := by
    intro h hl
    exact C12_unserialize_ub big old bytes hl (by rw [← word_zero]; exact h.2)
  have hhead : 8 ≤ bytes.length → unserialize big old bytes =
      if bytes.length ≠ 8 + word bytes 0 * 4 + word bytes 4 * 32 then .ok (false, old)
      else (do
        let (ts, off) ← readPositions big bytes (word bytes 0) 8
        let (hs, off) ← readHashes bytes (word bytes 4) off
        cassert (off = bytes.length)
        return (true, { targets := ts, sorted := St.sortU64 (old.sorted ++ ts), hashes := hs })) := by
    intro h8
    unfold unserialize
    rw [if_neg (by omega), memRead_ok (by omega)]
    simp only [ok_bind]
    rw [addInt_ok (by omega)]
    simp only [ok_bind]
    rw [memRead_ok (by omega)]
    simp only [ok_bind]
    rw [addInt_ok (by omega)]
    simp only [ok_bind, List.drop_zero, Nat.zero_add]
    have la : (bytes.take 4).length = 4 := by simp; omega
    have lb : ((bytes.drop 4).take 4).length = 4 := by simp; omega
    have va : (readBE32 big (bytes.take 4)).toNat = word bytes 0 := by
      rw [readBE32_eq big _ la, BitVec.toNat_ofNat, Nat.mod_eq_of_lt, word_zero]
      have := beValue_lt (bytes.take 4); rw [la] at this; exact this
    have vb : (readBE32 big ((bytes.drop 4).take 4)).toNat = word bytes 4 := by
      rw [readBE32_eq big _ lb, BitVec.toNat_ofNat, Nat.mod_eq_of_lt]
      · rfl
      · have := beValue_lt ((bytes.drop 4).take 4); rw [lb] at this; exact this
    rw [va, vb]
    rfl
  refine ⟨fun h => ?_, fun h hl => ?_, hub⟩
  · by_cases h8 : bytes.length < 8
    · unfold unserialize
      rw [if_pos h8]
    · rw [hhead (by omega), if_pos]
      intro hc
      exact h ⟨by omega, by omega⟩
  · obtain ⟨h8, hlen⟩ := h
    rw [hhead h8, if_neg (by omega), readPositions_words big bytes _ 8 (by omega) (by omega), ok_bind]
    obtain ⟨hs, e1, e2⟩ := readHashes_chunks bytes (word bytes 4) (8 + 4 * word bytes 0) (by omega) (by omega)
    simp only
    rw [e1, ok_bind]
    simp only
    rw [cassert_true (by simp; omega), ok_bind]
    exact ⟨_, rfl, rfl, e2, sort_le _, sort_perm _⟩

/-- Each case occurs: two bytes, a header that announces more than there is, and a proof of leaf 5 without hashes. -/
example : ¬ ProofFits [1, 2] ∧ ¬ ProofFits [0, 0, 0, 1, 0, 0, 0, 0] ∧ ProofFits [0, 0, 0, 1, 0, 0, 0, 0, 0, 0, 0, 5] := by decide

/-! ## C65: undo batches -/

/-- The inputs on which `UndoBatch::Unserialize` is undefined: the length check passes because it is computed modulo `2^32`, or the
offset leaves the range of `int`. -/
def UndoUB (bs : List Byte) : Prop := 8 ≤ bs.length ∧ bs.length = (8 + 36 * word bs 4) % 2 ^ 32 ∧ 2 ^ 31 ≤ 8 + 36 * word bs 4

theorem obj_header (big : Bool) (o : UndoObj) (bytes : List Byte) (h8 : 8 ≤ bytes.length) :
    o.unserialize big bytes =
      if bytes.length ≠ (4 + 4 + 4 * word bytes 4 + 32 * word bytes 4) % 2 ^ 32 then
        .ok (false, { o with numAdds := some (word bytes 0) })
      else (do
        let (ts, off) ← readPositions big bytes (word bytes 4) 8
        let (hs, off) ← readHashes bytes (word bytes 4) off
        cassert (off = bytes.length)
        return (true, { numAdds := some (word bytes 0), positions := ts, hashes := hs })) := by
  unfold UndoObj.unserialize
  rw [if_neg (by omega), memRead_ok (by omega)]
  simp only [ok_bind]
  rw [addInt_ok (by omega)]
  simp only [ok_bind]
  rw [memRead_ok (by omega)]
  simp only [ok_bind]
  rw [addInt_ok (by omega)]
  simp only [ok_bind, List.drop_zero, Nat.zero_add]
  have la : (bytes.take 4).length = 4 := by simp; omega
  have lb : ((bytes.drop 4).take 4).length = 4 := by simp; omega
  have va : (readBE32 big (bytes.take 4)).toNat = word bytes 0 := by
    rw [readBE32_eq big _ la, BitVec.toNat_ofNat, Nat.mod_eq_of_lt, word_zero]
    have := beValue_lt (bytes.take 4); rw [la] at this; exact this
  have vb : (readBE32 big ((bytes.drop 4).take 4)).toNat = word bytes 4 := by
    rw [readBE32_eq big _ lb, BitVec.toNat_ofNat, Nat.mod_eq_of_lt]
    · rfl
    · have := beValue_lt ((bytes.drop 4).take 4); rw [lb] at this; exact this
  rw [va, vb]
  rfl

/-- The four outcomes of decoding into an object. -/
theorem obj_cases (big : Bool) (o : UndoObj) (bytes : List Byte) :
    (bytes.length < 8 → o.unserialize big bytes = .ok (false, o)) ∧
    (8 ≤ bytes.length → ¬ UndoUB bytes → ¬ (UndoFits bytes ∧ bytes.length < 2 ^ 31) →
      o.unserialize big bytes = .ok (false, { o with numAdds := some (word bytes 0) })) ∧
    (UndoFits bytes → bytes.length < 2 ^ 31 → ∃ hs, o.unserialize big bytes =
        .ok (true, { numAdds := some (word bytes 0), positions := words bytes 8 (word bytes 4), hashes := hs }) ∧
      hs.map (·.val) = chunks bytes (8 + 4 * word bytes 4) (word bytes 4)) ∧
    (UndoUB bytes → o.unserialize big bytes = .error .ub) := by
  have hm : 4 + 4 + 4 * word bytes 4 + 32 * word bytes 4 = 8 + 36 * word bytes 4 := by ring
  refine ⟨fun h => ?_, fun h8 hub hf => ?_, fun hf hl => ?_, fun hub => ?_⟩
  · unfold UndoObj.unserialize
    rw [if_pos h]
  · rw [obj_header big o bytes h8, hm, if_pos]
    intro hc
    by_cases h31 : 2 ^ 31 ≤ 8 + 36 * word bytes 4
    · exact hub ⟨h8, hc, h31⟩
    · exact hf (by rw [Nat.mod_eq_of_lt (by omega)] at hc; exact ⟨⟨h8, hc⟩, by omega⟩)
  · obtain ⟨h8, hlen⟩ := hf
    rw [obj_header big o bytes h8, hm, Nat.mod_eq_of_lt (by omega), if_neg (by omega),
      readPositions_words big bytes _ 8 (by omega) (by omega), ok_bind]
    obtain ⟨hs, e1, e2⟩ := readHashes_chunks bytes (word bytes 4) (8 + 4 * word bytes 4) (by omega) (by omega)
    simp only
    rw [e1, ok_bind]
    simp only
    rw [cassert_true (by simp; omega), ok_bind]
    exact ⟨hs, rfl, e2⟩
  · obtain ⟨h8, hlen, hbig⟩ := hub
    rw [obj_header big o bytes h8, hm, if_neg (by omega)]
    by_cases hp : 8 + 4 * word bytes 4 < 2147483648
    · rcases readPositions_cases big bytes (word bytes 4) 8 with h | ⟨ts, h⟩
      · rw [h, error_bind]
      · rw [h, ok_bind]
        simp only
        rw [readHashes_ub bytes _ _ hp (by omega), error_bind]
    · rw [readPositions_ub big bytes _ 8 (by omega) hp, error_bind]

/-- The number of additions of the object: that of the last call that wrote it, an assignment or an input with a complete header, whether
it was accepted or not. `none` if there was no such call. -/
def lastAdds (cs : List UndoCall) : Option Nat :=
  cs.reverse.findSome? fun c => match c with
    | .assign u => some u.numAdds
    | .decode b => if 8 ≤ b.length then some (word b 0) else none

/-- What the object was last successfully given: number of additions, positions and hashes of the last assignment or accepted input. -/
def lastGiven (cs : List UndoCall) : Option (Nat × List Nat × List (List Byte)) :=
  cs.reverse.findSome? fun c => match c with
    | .assign u => some (u.numAdds, u.positions, u.hashes.map (·.val))
    | .decode b => if UndoFits b ∧ b.length < 2 ^ 31 then
        some (word b 0, words b 8 (word b 4), chunks b (8 + 4 * word b 4) (word b 4)) else none

theorem undoCalls_append (big : Bool) (o : UndoObj) (cs : List UndoCall) (c : UndoCall) :
    undoCalls big o (cs ++ [c]) = (do undoCall big (← undoCalls big o cs) c) := by
  unfold undoCalls
  rw [List.foldlM_append]
  congr 1
  funext o'
  rw [List.foldlM_cons]
  cases undoCall big o' c <;> rfl

theorem undoCall_decode (big : Bool) (o : UndoObj) (b : List Byte) :
    undoCall big o (.decode b) = (do
      let (_, o) ← o.unserialize big b
      return o) := rfl

/-- C65, undo batches, every sequence of assignments and `Unserialize` calls, accepted or not, on a new object. If one of the inputs is one
of those on which `Unserialize` is undefined (C15), the sequence is. Otherwise positions and hashes are those the object was last
successfully given, empty if there are none, but the number of additions is that of the last input with a complete header even if
it was rejected. -/
theorem _root_.Utreexo.C65_undo (big : Bool) (cs : List UndoCall) :
    ((∃ b, .decode b ∈ cs ∧ UndoUB b) → undoCalls big .new cs = .error .ub) ∧
    ((∀ b, .decode b ∈ cs → ¬ UndoUB b) → ∃ o, undoCalls big .new cs = .ok o ∧ o.numAdds = lastAdds cs ∧
      (o.positions, o.hashes.map (·.val)) = ((lastGiven cs).map Prod.snd).getD ([], [])) := by
  constructor
  · rintro ⟨b, hb, hub⟩
    generalize UndoObj.new = o
    induction cs generalizing o with
    | nil => simp at hb
    | cons c cs ih =>
      unfold undoCalls
      rw [List.foldlM_cons]
      by_cases hc : ∃ b', c = .decode b' ∧ UndoUB b'
      · obtain ⟨b', rfl, h'⟩ := hc
        rw [undoCall_decode, (obj_cases big o b').2.2.2 h']
        rfl
      · have hmem : .decode b ∈ cs := by
          rcases List.mem_cons.1 hb with rfl | h
          · exact absurd ⟨b, rfl, hub⟩ hc
          · exact h
        have : ∃ o', undoCall big o c = .ok o' := by
          cases c with
          | assign u => exact ⟨_, rfl⟩
          | decode b' =>
            have hn : ¬ UndoUB b' := fun h => hc ⟨b', rfl, h⟩
            rw [undoCall_decode]
            by_cases h8 : b'.length < 8
            · rw [(obj_cases big o b').1 h8]; exact ⟨_, rfl⟩
            · by_cases hf : UndoFits b' ∧ b'.length < 2 ^ 31
              · obtain ⟨hs, e, -⟩ := (obj_cases big o b').2.2.1 hf.1 hf.2
                rw [e]; exact ⟨_, rfl⟩
              · rw [(obj_cases big o b').2.1 (by omega) hn hf]; exact ⟨_, rfl⟩
        obtain ⟨o', ho'⟩ := this
        rw [ho', ok_bind]
        exact ih hmem o'
  · intro hall
    induction cs using List.reverseRecOn with
    | nil => exact ⟨_, rfl, rfl, rfl⟩
    | append_singleton cs c ih =>
      obtain ⟨o, e1, e2, e3⟩ := ih fun b hb => hall b (List.mem_append_left _ hb)
      rw [undoCalls_append, e1, ok_bind]
      unfold lastAdds lastGiven at *
      rw [List.reverse_append, List.reverse_singleton, List.singleton_append, List.findSome?_cons, List.findSome?_cons]
      cases c with
      | assign u => exact ⟨_, rfl, rfl, rfl⟩
      | decode b =>
        have hn := hall b (by simp)
        rw [undoCall_decode]
        dsimp only
        by_cases h8 : b.length < 8
        · rw [(obj_cases big o b).1 h8, ok_bind, if_neg (by omega), if_neg (by rintro ⟨⟨h, -⟩, -⟩; omega)]
          exact ⟨o, rfl, e2, e3⟩
        · rw [if_pos (by omega)]
          by_cases hf : UndoFits b ∧ b.length < 2 ^ 31
          · obtain ⟨hs, e, e'⟩ := (obj_cases big o b).2.2.1 hf.1 hf.2
            rw [e, ok_bind, if_pos hf]
            refine ⟨_, rfl, rfl, ?_⟩
            simp [e']
          · rw [(obj_cases big o b).2.1 (by omega) hn hf, ok_bind, if_neg hf]
            exact ⟨_, rfl, rfl, e3⟩

/-- C65, reading an undo batch: after any such sequence, `GetNumAdds`, `Serialize`, a comparison with itself and everything else that
reads the whole object is undefined exactly if no batch was assigned and no input had a complete header. -/
theorem _root_.Utreexo.C65_defined (big : Bool) (cs : List UndoCall) (o : UndoObj) (h : undoCalls big .new cs = .ok o) :
    (o.getNumAdds ≠ .error .ub ↔ ∃ c ∈ cs, (∃ u, c = .assign u) ∨ ∃ b, c = .decode b ∧ 8 ≤ b.length) ∧
    (o.getNumAdds = .error .ub → o.value = .error .ub ∧ o.eq o = .error .ub ∧ ∀ big' old, o.serialize big' old = .error .ub) ∧
    (∀ n, o.getNumAdds = .ok n → o.value = .ok ⟨n, o.positions, o.hashes⟩ ∧ o.eq o = .ok true) := by
  have hn : ∀ b, .decode b ∈ cs → ¬ UndoUB b := by
    intro b hb hub
    rw [(C65_undo big cs).1 ⟨b, hb, hub⟩] at h
    cases h
  obtain ⟨o', e1, e2, -⟩ := (C65_undo big cs).2 hn
  rw [h] at e1
  obtain rfl := Except.ok.inj e1
  refine ⟨?_, ?_, ?_⟩
  · have : o.getNumAdds ≠ .error .ub ↔ o.numAdds ≠ none := by
      unfold UndoObj.getNumAdds
      cases o.numAdds <;> simp
    rw [this, e2]
    unfold lastAdds
    rw [ne_eq, List.findSome?_eq_none_iff]
    push Not
    constructor
    · rintro ⟨c, hc, hne⟩
      refine ⟨c, List.mem_reverse.1 hc, ?_⟩
      cases c with
      | assign u => exact .inl ⟨u, rfl⟩
      | decode b =>
        right
        refine ⟨b, rfl, ?_⟩
        by_contra hcon
        simp [hcon] at hne
    · rintro ⟨c, hc, ⟨u, rfl⟩ | ⟨b, rfl, hb⟩⟩
      · exact ⟨_, List.mem_reverse.2 hc, by simp⟩
      · exact ⟨_, List.mem_reverse.2 hc, by simp [hb]⟩
  · intro h0
    refine ⟨?_, ?_, fun big' old => ?_⟩
    · unfold UndoObj.value; rw [h0]; rfl
    · unfold UndoObj.eq; rw [h0]; rfl
    · unfold UndoObj.serialize UndoObj.value; rw [h0]; rfl
  · intro n h0
    refine ⟨?_, ?_⟩
    · unfold UndoObj.value; rw [h0]; rfl
    · unfold UndoObj.eq; rw [h0]
      simp only [ok_bind, pure_ok, Except.ok.injEq]
      simp [undoEq]

/-- C65, comparing two undo batches: `operator==` reads both counts; it is undefined exactly if one of the objects has none, and
otherwise says whether the values are equal. `Serialize` writes the value. -/
theorem _root_.Utreexo.C65_compare (o o' : UndoObj) :
    (o.eq o' = .error .ub ↔ o.getNumAdds = .error .ub ∨ o'.getNumAdds = .error .ub) ∧
    ∀ u u', o.value = .ok u → o'.value = .ok u' → (∃ b, o.eq o' = .ok b ∧ (b = true ↔ u = u')) ∧
      ∀ big old, o.serialize big old = Batch.serializeUndo big u old := by
  obtain ⟨m, ps, hs⟩ := o
  obtain ⟨m', ps', hs'⟩ := o'
  constructor
  · cases m <;> cases m' <;> simp [UndoObj.eq, UndoObj.getNumAdds, ok_bind, error_bind, pure_ok]
  · intro u u' h h'
    cases m with
    | none => cases h
    | some m =>
      cases m' with
      | none => cases h'
      | some m' =>
        obtain rfl := Except.ok.inj h
        obtain rfl := Except.ok.inj h'
        refine ⟨⟨_, rfl, ?_⟩, fun big old => rfl⟩
        simp only [undoEq, Bool.and_eq_true, beq_iff_eq, UndoBatch.mk.injEq, and_assoc]
        exact ⟨fun ⟨h1, _, _, h4, h5⟩ => ⟨h1, h4, h5⟩, fun ⟨h1, h4, h5⟩ => ⟨h1, by rw [h4], by rw [h5], h4, h5⟩⟩

/-- C65, exactly: the object holds what it was last successfully given if and only if it was given something and the last input with a
complete header since then, if there is one, has the same number of additions. -/
theorem _root_.Utreexo.C65_exact (big : Bool) (cs : List UndoCall) (o : UndoObj) (h : undoCalls big .new cs = .ok o) :
    (∃ u, o.value = .ok u ∧ lastGiven cs = some (u.numAdds, u.positions, u.hashes.map (·.val))) ↔
      ∃ g, lastGiven cs = some g ∧ lastAdds cs = some g.1 := by
  have hn : ∀ b, .decode b ∈ cs → ¬ UndoUB b := by
    intro b hb hub
    rw [(C65_undo big cs).1 ⟨b, hb, hub⟩] at h
    cases h
  obtain ⟨o', e1, e2, e3⟩ := (C65_undo big cs).2 hn
  rw [h] at e1
  obtain rfl := Except.ok.inj e1
  unfold UndoObj.value UndoObj.getNumAdds
  constructor
  · rintro ⟨u, h1, h2⟩
    refine ⟨_, h2, ?_⟩
    rw [← e2]
    cases ho : o.numAdds with
    | none => rw [ho] at h1; cases h1
    | some n =>
      rw [ho] at h1
      have := congrArg UndoBatch.numAdds (Except.ok.inj h1)
      rw [← this]
  · rintro ⟨g, h1, h2⟩
    rw [← e2] at h2
    rw [h1] at e3
    refine ⟨⟨g.1, o.positions, o.hashes⟩, by rw [h2]; rfl, ?_⟩
    rw [h1]
    simp only [Option.map_some, Option.getD_some] at e3
    obtain ⟨g1, g2⟩ := g
    simp only at e3 ⊢
    rw [← e3]

/-- C65, what holds for undo batches: an object that was given something holds what it was last given if no rejected input since had a
complete header. Missing: the others, for which `C65_undo` says what happens (refuted below). -/
theorem _root_.Utreexo.C65_partial (big : Bool) (cs ds : List UndoCall) (u : UndoBatch Hash32) (hcs : ∀ b, .decode b ∈ cs → ¬ UndoUB b)
    (hds : ∀ c ∈ ds, ∃ b, c = .decode b ∧ b.length < 8) :
    undoCalls big .new (cs ++ .assign u :: ds) = .ok (.of u) := by
  have hstep : ∀ ds : List UndoCall, (∀ c ∈ ds, ∃ b, c = .decode b ∧ b.length < 8) → ∀ o, undoCalls big o ds = .ok o := by
    intro ds
    induction ds with
    | nil => intro _ o; rfl
    | cons c ds ih =>
      intro hd o
      obtain ⟨b, rfl, hb⟩ := hd c (by simp)
      unfold undoCalls
      rw [List.foldlM_cons]
      rw [undoCall_decode, (obj_cases big o b).1 hb, ok_bind]
      exact ih (fun c hc => hd c (List.mem_cons_of_mem _ hc)) o
  obtain ⟨o, e, -⟩ := (C65_undo big cs).2 hcs
  unfold undoCalls at *
  rw [List.foldlM_append, e, ok_bind, List.foldlM_cons]
  exact hstep ds hds _

/-! ## C65: proofs -/

/-- What the object was given since it was last empty, newest first: the targets and hashes of all accepted inputs back to the last
assignment (included) or `SetNull`. The argument lists the calls newest first. -/
def given : List ProofCall → List (List Nat × List (List Byte))
  | [] => []
  | .assign ts hs :: _ => [(ts, hs.map (·.val))]
  | .setNull :: _ => []
  | .decode b :: cs =>
    if ProofFits b then (words b 8 (word b 0), chunks b (8 + 4 * word b 0) (word b 4)) :: given cs else given cs

theorem proofCalls_append (big : Bool) (p : BatchProof Hash32) (cs : List ProofCall) (c : ProofCall) :
    proofCalls big p (cs ++ [c]) = (do proofCall big (← proofCalls big p cs) c) := by
  unfold proofCalls
  rw [List.foldlM_append]
  congr 1
  funext p'
  rw [List.foldlM_cons]
  cases proofCall big p' c <;> rfl

theorem proofCall_decode (big : Bool) (p : BatchProof Hash32) (b : List Byte) :
    proofCall big p (.decode b) = (do
      let (_, p) ← unserialize big p b
      return p) := rfl

/-- C65, proofs, every sequence of assignments, `SetNull` and `Unserialize` calls, accepted or not, on a new object. If an input of
`2^31` bytes or more has the length its header asks for, the sequence is undefined. Otherwise targets and hashes are those the object
was given last, but the sorted targets are all that it was given since it was last empty. -/
theorem _root_.Utreexo.C65_proof (big : Bool) (cs : List ProofCall) :
    ((∃ b, .decode b ∈ cs ∧ ProofFits b ∧ 2 ^ 31 ≤ b.length) → proofCalls big {} cs = .error .ub) ∧
    ((∀ b, .decode b ∈ cs → ProofFits b → b.length < 2 ^ 31) → ∃ p, proofCalls big {} cs = .ok p ∧
      (p.targets, p.hashes.map (·.val)) = (given cs.reverse).headD ([], []) ∧
      p.sorted.Pairwise (· ≤ ·) ∧ p.sorted.Perm ((given cs.reverse).map Prod.fst).flatten) := by
  constructor
  · rintro ⟨b, hb, hub⟩
    generalize ({} : BatchProof Hash32) = p
    induction cs generalizing p with
    | nil => simp at hb
    | cons c cs ih =>
      unfold proofCalls
      rw [List.foldlM_cons]
      by_cases hc : ∃ b', c = .decode b' ∧ ProofFits b' ∧ 2 ^ 31 ≤ b'.length
      · obtain ⟨b', rfl, h', h''⟩ := hc
        rw [proofCall_decode, (C12_exact big p b').2.2 h' h'']
        rfl
      · have hmem : .decode b ∈ cs := by
          rcases List.mem_cons.1 hb with rfl | h
          · exact absurd ⟨b, rfl, hub⟩ hc
          · exact h
        have : ∃ p', proofCall big p c = .ok p' := by
          cases c with
          | assign ts hs => exact ⟨_, rfl⟩
          | setNull => exact ⟨_, rfl⟩
          | decode b' =>
            rw [proofCall_decode]
            by_cases hf : ProofFits b'
            · obtain ⟨q, e, -⟩ := (C12_exact big p b').2.1 hf (by
                by_contra hl
                exact hc ⟨b', rfl, hf, by omega⟩)
              rw [e]; exact ⟨_, rfl⟩
            · rw [(C12_exact big p b').1 hf]; exact ⟨_, rfl⟩
        obtain ⟨p', hp'⟩ := this
        rw [hp', ok_bind]
        exact ih hmem p'
  · intro hall
    induction cs using List.reverseRecOn with
    | nil => exact ⟨_, rfl, rfl, List.Pairwise.nil, List.Perm.refl _⟩
    | append_singleton cs c ih =>
      obtain ⟨p, e1, e2, e3, e4⟩ := ih fun b hb => hall b (List.mem_append_left _ hb)
      rw [proofCalls_append, e1, ok_bind, List.reverse_append, List.reverse_singleton, List.singleton_append]
      cases c with
      | assign ts hs =>
        refine ⟨_, rfl, rfl, sort_le _, ?_⟩
        unfold given BatchProof.mk'
        simpa using sort_perm ts
      | setNull => exact ⟨_, rfl, rfl, List.Pairwise.nil, List.Perm.refl _⟩
      | decode b =>
        rw [proofCall_decode]
        unfold given
        by_cases hf : ProofFits b
        · obtain ⟨q, g1, g2, g3, g4, g5⟩ := (C12_exact big p b).2.1 hf (hall b (by simp) hf)
          rw [g1, ok_bind, if_pos hf]
          refine ⟨q, rfl, ?_, g4, ?_⟩
          · rw [List.headD_cons, g2, g3]
          · rw [List.map_cons, List.flatten_cons]
            refine g5.trans (List.perm_append_comm.trans ?_)
            rw [g2]
            exact List.Perm.append_left _ e4
        · rw [(C12_exact big p b).1 hf, ok_bind, if_neg hf]
          exact ⟨p, rfl, e2, e3, e4⟩

/-- C65, exactly for proofs: the object is the one that a new object given only the last contents would be if and only if everything it
was given before, since it was last empty, had no targets. -/
theorem _root_.Utreexo.C65_proof_exact (big : Bool) (cs : List ProofCall) (p : BatchProof Hash32) (h : proofCalls big {} cs = .ok p) :
    p = BatchProof.mk' p.targets p.hashes ↔ ∀ g ∈ (given cs.reverse).tail, g.1 = [] := by
  have hn : ∀ b, .decode b ∈ cs → ProofFits b → b.length < 2 ^ 31 := by
    intro b hb hf
    by_contra hl
    rw [(C65_proof big cs).1 ⟨b, hb, hf, by omega⟩] at h
    cases h
  obtain ⟨p', e1, e2, e3, e4⟩ := (C65_proof big cs).2 hn
  rw [h] at e1
  obtain rfl := Except.ok.inj e1
  have hflat : ((given cs.reverse).map Prod.fst).flatten = p.targets ++ ((given cs.reverse).tail.map Prod.fst).flatten := by
    cases hg : given cs.reverse with
    | nil => rw [hg] at e2; simp at e2; simp [e2.1]
    | cons g gs => rw [hg] at e2; simp at e2; simp [← e2]
  rw [hflat] at e4
  have hnil : ((given cs.reverse).tail.map Prod.fst).flatten = [] ↔ ∀ g ∈ (given cs.reverse).tail, g.1 = [] := by
    rw [List.flatten_eq_nil_iff]
    constructor
    · intro h g hg
      exact h _ (List.mem_map_of_mem hg)
    · intro h l hl
      obtain ⟨g, hg, rfl⟩ := List.mem_map.1 hl
      exact h g hg
  rw [← hnil]
  constructor
  · intro he
    have h1 : p.sorted = St.sortU64 p.targets := congrArg BatchProof.sorted he
    have h2 := e4.length_eq
    rw [h1, (sort_perm _).length_eq, List.length_append] at h2
    exact List.length_eq_zero_iff.1 (by omega)
  · intro he
    rw [he, List.append_nil] at e4
    have h1 : p.sorted = St.sortU64 p.targets := by
      refine List.Perm.eq_of_pairwise (le := (· ≤ ·)) ?_ e3 (sort_le _) (e4.trans (sort_perm _).symm)
      intro a b _ _ h1 h2
      exact Nat.le_antisymm h1 h2
    unfold BatchProof.mk'
    rw [← h1]

end Object

open Pol in
/-- C65, used proof objects and `Verify`: whatever was done with the object before, a pollard never accepts it while it still has sorted
targets from before, unless it has no targets at all (and nothing is verified then). -/
theorem C65_verify [HashOps Hash32] (big : Bool) (cs : List Object.ProofCall) (q : BatchProof Hash32)
    (hq : Object.proofCalls big {} cs = .ok q) (F : RamForest Hash32) (st : List (UndoBatch Hash32 × RamForest Hash32))
    (p p' : Pollard Hash32) (h : Sync F st p) (hs : List Hash32) (hv : verify p q hs = .ok (true, p')) :
    (q.targets = [] ∧ p' = p) ∨
      (q = BatchProof.mk' q.targets q.hashes ∧ ∀ g ∈ (Object.given cs.reverse).tail, g.1 = []) := by
  obtain ⟨L, A, hI⟩ := h.inv
  have hlen : hs.length = q.targets.length := by
    by_contra hne
    unfold verify at hv
    rw [if_pos hne] at hv
    simp at hv
  rcases verify_ok hI.inv hI.len q hs with ⟨e, -⟩ | ⟨e, ht, -⟩ | ⟨e, -⟩ | ⟨s', e, -⟩ | ⟨s', A1, e, -, ha, -⟩ <;> rw [e] at hv
  · simp at hv
  · left
    exact ⟨ht, by simpa using hv.symm⟩
  · simp at hv
  · simp at hv
  · right
    have h1 : hs.length = q.sorted.length := by
      have := congrArg List.length ha.tgt
      rwa [List.length_map] at this
    have hn : ∀ b, .decode b ∈ cs → Spec.ProofFits b → b.length < 2 ^ 31 := by
      intro b hb hf
      by_contra hl
      rw [(C65_proof big cs).1 ⟨b, hb, hf, by omega⟩] at hq
      cases hq
    obtain ⟨q', e1, e2, e3, e4⟩ := (C65_proof big cs).2 hn
    rw [hq] at e1
    obtain rfl := Except.ok.inj e1
    have hx : ∀ g ∈ (Object.given cs.reverse).tail, g.1 = [] := by
      have h2 := e4.length_eq
      cases hg : Object.given cs.reverse with
      | nil => simp
      | cons g gs =>
        rw [hg] at e2 h2
        simp only [List.headD_cons] at e2
        have h3 : q.targets.length = g.1.length := by rw [← e2]
        rw [List.map_cons, List.flatten_cons, List.length_append] at h2
        have h4 : (gs.map Prod.fst).flatten = [] := List.length_eq_zero_iff.1 (by omega)
        intro x hx
        exact List.flatten_eq_nil_iff.1 h4 _ (List.mem_map_of_mem hx)
    exact ⟨(C65_proof_exact big cs q hq).2 hx, hx⟩

section Examples

open Object Ram

attribute [local instance] toyOps32

/-- Adds leaves 1 to 4, deletes the first and adds 5, offers `bytes` to the undo batch of the last step and undoes it. Returns the answers
of `Unserialize` and `Undo`, and the leaves of the forest (first byte of each). -/
def offerAndUndo (bytes : List Byte) : Res (Bool × Bool × List Byte) := do
  let (_, _, s1) ← modify (mk 0) ([1, 2, 3, 4].map fun b => (toyHash b, false)) []
  let (_, u, s2) ← modify s1 [(toyHash 5, false)] [0]
  match u with
  | none => .error .abort
  | some u =>
    let (r, o) ← (UndoObj.of u).unserialize false bytes
    let (ok, s3) ← undo s2 (← o.value)
    let ls ← (List.range s3.numLeaves).mapM fun i => getLeaf s3 i
    return (r, ok, ls.map fun h => h.val.headD 0)

/-- C65 is false. An input that is rejected because it is too short leaves the batch as it was, and `Undo` gives back the four leaves. An
input rejected because of its length changes the number of additions, and `Undo` answers true with a forest that never existed, or
is undefined. A new undo batch cannot be read at all. A proof object that has decoded two proofs checks the targets of both. -/
theorem C65_false :
    offerAndUndo [0, 0, 0, 2] = .ok (false, true, [1, 2, 3, 4]) ∧
    offerAndUndo [0, 0, 0, 2, 0, 0, 0, 9] = .ok (false, true, [1, 4, 3]) ∧
    offerAndUndo [0, 0, 0, 0, 0, 0, 0, 9] = .error .ub ∧
    UndoObj.new.getNumAdds = .error .ub ∧
    (∃ p, proofCalls false {} [.decode [0, 0, 0, 1, 0, 0, 0, 0, 0, 0, 0, 7], .decode [0, 0, 0, 1, 0, 0, 0, 0, 0, 0, 0, 5]] = .ok p ∧
      p.targets = [5] ∧ p.sorted = [5, 7]) := by
  refine ⟨by decide +kernel, by decide +kernel, by decide +kernel, rfl, _, rfl, rfl, by decide⟩

/-- The conditions of the theorems above are met by sequences in which inputs are accepted and rejected. -/
example : (∀ b, UndoCall.decode b ∈ [UndoCall.decode [0, 0, 0, 7, 0, 0, 0, 0], .decode [0, 0, 0, 8, 0, 0, 0, 1]] → ¬ UndoUB b) ∧
    lastAdds [.decode [0, 0, 0, 7, 0, 0, 0, 0], .decode [0, 0, 0, 8, 0, 0, 0, 1]] = some 8 ∧
    lastGiven [.decode [0, 0, 0, 7, 0, 0, 0, 0], .decode [0, 0, 0, 8, 0, 0, 0, 1]] = some (7, [], []) := by
  refine ⟨?_, by decide, by decide⟩
  intro b hb
  simp only [List.mem_cons, UndoCall.decode.injEq, List.not_mem_nil, or_false] at hb
  rcases hb with rfl | rfl
  · rintro ⟨-, -, h⟩
    exact absurd h (by decide)
  · rintro ⟨-, -, h⟩
    exact absurd h (by decide)

end Examples

end Utreexo
