import Verif.Model.Batch
import Verif.Model.Pollard

/-!
# Model of the fuzz targets (src/fuzz)

A target is a function of the input bytes. It returns early when the input is too short, which is not a failure. It fails
when an `assert` fires, an exception leaves the function or its behaviour is undefined. The registration of
the targets and the choice of one of them by an environment variable (src/fuzz/fuzz.cpp) are not modelled.
-/

namespace Utreexo
namespace Fuzz

/-- Take `k` bytes off the input, `none` models the early `return` (`FUZZ_CONSUME`, `FUZZ_CONSUME_VEC`, src/fuzz/fuzz.h:24-44). -/
def take (k : Nat) (data : List Byte) : Option (List Byte × List Byte) :=
  if k > data.length then none else some (data.take k, data.drop k)

/-- The loop of `FUZZ_CONSUME_VEC(uint64_t, name, len)` (src/fuzz/fuzz.h:41-44) after the check of the size. -/
def words (big : Bool) : Nat → List Byte → List Nat
  | 0, _ => []
  | k + 1, data => (Codec.hostLoad big 64 (data.take 8)).toNat :: words big k (data.drop 8)

/-- The target `batchproof` (src/fuzz/batchproof.cpp:7-19). -/
def batchproof (big : Bool) (data : List Byte) : Res Unit :=
  match take 1 data with
  | none => .ok ()
  | some (a, data) =>
    match take 1 data with
    | none => .ok ()
    | some (b, data) =>
      match take (8 + (Codec.hostLoad big 8 a).toNat * 4 + (Codec.hostLoad big 8 b).toNat * 32) data with
      | none => .ok ()
      | some (proofBytes, _) => do
        let (ok, proof) ← Batch.unserialize big (BatchProof.mk' [] []) proofBytes
        if ok then
          let bytes ← Batch.serialize big proof []
          cassert (proofBytes == bytes)
        else return ()

/-- The target `forest_state` (src/fuzz/forest_state.cpp:7-29). -/
def forestState (big : Bool) (data : List Byte) : Res Unit :=
  match take 8 data with
  | none => .ok ()
  | some (a, data) => do
    let n := (Codec.hostLoad big 64 a).toNat
    let _ := St.numRoots n
    let _ := St.numRows n
    let _ ← St.rootPositions n
    match take 2 data with
    | none => .ok ()
    | some (b, data) =>
      let k := (Codec.hostLoad big 16 b).toNat
      match take (8 * k) data with
      | none => .ok ()
      | some (c, _) =>
        let targets := St.sortU64 (words big k c)
        let _ ← St.proofPositions n targets
        let _ ← St.transform n targets
        let _ ← St.checkTargetsSanity n targets
        let _ ← St.undoTransform n targets
        return ()

/-- `SetHash` (src/fuzz/pollard.cpp:9-20) for `num ≥ 0`. -/
def setHash (num : Nat) : Hash32 :=
  ⟨BitVec.ofNat 8 num :: BitVec.ofNat 8 (num >>> 8) :: BitVec.ofNat 8 (num >>> 16) :: BitVec.ofNat 8 (num >>> 24) :: 255 ::
    List.replicate 27 0, rfl⟩

/-- `hash.fill(0)` (src/fuzz/pollard.cpp:61). -/
def zeroHash : Hash32 := ⟨List.replicate 32 0, rfl⟩

/-- The loop that reads the leaves (src/fuzz/pollard.cpp:31-36), `i` counts up and `k` is the number that remain. -/
def leaves : Nat → Nat → List Byte → Option (List (Leaf Hash32) × List Byte)
  | _, 0, data => some ([], data)
  | _, _ + 1, [] => none
  | i, k + 1, b :: data =>
    match leaves (i + 1) k data with
    | none => none
    | some (ls, data) => some ((setHash i, b.getLsbD 0) :: ls, data)

variable [HashOps Hash32]

/-- The loop that chooses the targets (src/fuzz/pollard.cpp:45-50). -/
def targets (forest : RamForest Hash32) : Nat → Nat → List Byte → Res (Option (List Hash32 × List Byte))
  | _, 0, data => .ok (some ([], data))
  | _, _ + 1, [] => .ok none
  | i, k + 1, b :: data => do
    let t ← (if b.getLsbD 0 then (Ram.getLeaf forest i).map (fun h => [h]) else .ok [] : Res (List Hash32))
    match ← targets forest (i + 1) k data with
    | none => return none
    | some (ts, data) => return some (t ++ ts, data)

/-- The first part of the target `pollard` (src/fuzz/pollard.cpp:22-54): the forest, the pollard, the targets, the proof and the
input that remains. -/
def setup (data : List Byte) : Res (Option (RamForest Hash32 × Pollard Hash32 × List Hash32 × BatchProof Hash32 × List Byte)) :=
  match data with
  | [] => .ok none
  | b :: data =>
    let n := (b &&& 127).toNat
    match leaves 0 n data with
    | none => .ok none
    | some (ls, data) => do
      let (ok, _, forest) ← Ram.modify (Ram.mk 0) ls []
      cassert ok
      let (ok, pollard) ← Pol.modify (Pol.mk 0) ls []
      cassert ok
      match ← targets forest 0 n data with
      | none => return none
      | some (ts, data) =>
        match ← Acc.prove Ram.vt forest ts with
        | none => throw .abort
        | some proof => return some (forest, pollard, ts, proof, data)

/-- The proof with the first hash overwritten (src/fuzz/pollard.cpp:60-62). -/
def alter (proof : BatchProof Hash32) : BatchProof Hash32 := BatchProof.mk' proof.targets (proof.hashes.set 0 zeroHash)

/-- The target `pollard` (src/fuzz/pollard.cpp:22-78). -/
def pollard (data : List Byte) : Res Unit := do
  match ← setup data with
  | none => return ()
  | some (forest, pollard, ts, proof, data) =>
    match data with
    | [] => return ()
    | b :: _ =>
      if proof.hashes.length > 0 ∧ b.getLsbD 0 = false then
        let (ok, _) ← Pol.verify pollard (alter proof) ts
        cassert (!ok)
      else
        let (ok, pollard) ← Pol.verify pollard proof ts
        cassert ok
        let (ok, _, forest) ← Ram.modify forest [] proof.sorted
        cassert ok
        let (ok, pollard) ← Pol.modify pollard [] proof.sorted
        cassert ok
        let forestRoots ← Ram.roots forest
        let pollardRoots ← Pol.roots pollard
        cassert (forestRoots == pollardRoots)

end Fuzz
end Utreexo
