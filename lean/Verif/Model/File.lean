import Verif.Model.Batch

/-!
# Model of the forest file (src/ram_forest.cpp:98-185)

A file is its byte content. `Commit` is modelled as the list of its `write` calls, so that a crash
between two of them can be expressed; stream buffering and input/output errors are not modelled.
-/

namespace Utreexo
namespace File

/-- `m_file.write` at offset `off` of a file that is not truncated. -/
def writeAt (file : List Byte) (off : Nat) (bs : List Byte) : List Byte :=
  file.take off ++ bs ++ file.drop (off + bs.length)

/-- Executing consecutive `write` calls from an offset. -/
def applyWrites (file : List Byte) : Nat → List (List Byte) → List Byte
  | _, [] => file
  | off, w :: ws => applyWrites (writeAt file off w) (off + w.length) ws

/-- One row of `Commit` (src/ram_forest.cpp:177-180): the hashes written. The counter `j` is an
`int`: counting up to `2^31` overflows. -/
def commitRow (row : List Hash32) (numHashes : Nat) : Res (List (List Byte)) := do
  cassert (numHashes ≤ row.length)
  if numHashes < 2147483648 then return (row.take numHashes).map (fun h => h.val)
  else .error .ub

/-- The row loop of `Commit` (src/ram_forest.cpp:176-182), `k` rows from row `i`. -/
def commitRows (data : List (List Hash32)) : Nat → Nat → Nat → Res (List (List Byte))
  | _, 0, _ => .ok []
  | i, k + 1, numHashes => do
    let row ← vecGet data i
    let ws ← commitRow row numHashes
    let rest ← commitRows data (i + 1) k (numHashes >>> 1)
    return ws ++ rest

/-- `RamForest::Commit` (src/ram_forest.cpp:164-185): the `write` calls from offset 0. -/
def commitWrites (big : Bool) (s : RamForest Hash32) : Res (List (List Byte)) := do
  let rows ← commitRows s.ext 0 (St.numRows s.numLeaves + 1) s.numLeaves
  return Codec.writeBE64 big (BitVec.ofNat 64 s.numLeaves) :: rows

/-- The file after `RamForest::Commit`. -/
def commit (big : Bool) (s : RamForest Hash32) (file : List Byte) : Res (List Byte) := do
  return applyWrites file 0 (← commitWrites big s)

/-- The loop reading one row in `Restore` (src/ram_forest.cpp:142-152). Reading past the end of
the file leaves the buffer uninitialised. Returns the row and the next offset. -/
def restoreRow (file : List Byte) : Nat → Nat → Res (List Hash32 × Nat)
  | off, 0 => .ok ([], off)
  | off, k + 1 => do
    let h ← Batch.readHash file off
    let (hs, off') ← restoreRow file (off + 32) k
    return (h :: hs, off')

/-- The row loop of `Restore` (src/ram_forest.cpp:140-157): the rows, with the trailing empty row
pushed at the end of each iteration. -/
def restoreRows (file : List Byte) : Nat → Nat → Nat → Res (List (List Hash32))
  | 0, _, _ => .error .ub
  | fuel + 1, off, numHashes =>
    if numHashes = 0 then .ok [[]]
    else do
      let (row, off') ← restoreRow file off numHashes
      let rest ← restoreRows file fuel off' (numHashes >>> 1)
      return row :: rest

/-- `RamForest::RamForest(file)` on an existing file: `Restore` (src/ram_forest.cpp:98-108,
126-162). -/
def restore [HashOps Hash32] (big : Bool) (file : List Byte) : Res (RamForest Hash32) := do
  let n := (Codec.readBE64 big (← memRead file 0 8)).toNat
  let data ← restoreRows file 66 8 n
  let s : RamForest Hash32 :=
    { numLeaves := n, roots := [], posmap := Ram.restorePosmap (data.headD []) 0 [], ext := data }
  Ram.restoreRoots s

/-- `RamForest::RamForest(file)` when the file does not exist yet (src/ram_forest.cpp:110-114):
an empty forest committed to a new file. -/
def create [HashOps Hash32] (big : Bool) : Res (RamForest Hash32 × List Byte) := do
  let s : RamForest Hash32 := Ram.mk 0
  return (s, ← commit big s [])

end File
end Utreexo
