import Verif.Model.Pollard
import Verif.Model.Object

/-!
# Model of the printing functions

`PrintRoots`, `PrintPositionMap` (src/accumulator.cpp), `BatchProof::Print`, `UndoBatch::Print` (src/batchproof.cpp) and the helpers
they use. The result is what the call appends to `std::cout`, as a list of characters. The stream is assumed to be in its default
state, so that integers are written in decimal without grouping, and writing to it does not fail.
-/

namespace Utreexo
namespace Print

/-- What is written to the stream. -/
abbrev Text := List Char

/-- `stream << n` for a `uint64_t`: decimal digits without leading zeros (standard library). -/
def dec (n : Nat) : Text := Nat.toDigits 10 n

/-- `hexmap` (src/accumulator.cpp:52-53, src/batchproof.cpp:17-18). -/
def hexmap : List Char := ['0', '1', '2', '3', '4', '5', '6', '7', '8', '9', 'a', 'b', 'c', 'd', 'e', 'f']

/-- `HexStr` (src/accumulator.cpp:48-60, src/batchproof.cpp:13-25): two characters per byte. -/
def hexStr : List Byte → Text
  | [] => []
  | v :: s => hexmap.getD (v.toNat >>> 4) '0' :: hexmap.getD (v.toNat &&& 15) '0' :: hexStr s

/-- `print_vector` (src/state.cpp:13-18). -/
def printVector : List Nat → Text
  | [] => ['\n']
  | i :: vec => dec i ++ [' '] ++ printVector vec

/-- `print_swaps` (src/state.cpp:20-25). -/
def printSwaps : List St.Swap → Text
  | [] => ['\n']
  | i :: vec => [if i.isRange then 'r' else '_', if i.collapse then 'c' else '_', ' ', '('] ++ dec i.src ++ [',', ' '] ++ dec i.dst ++
      [')', ' '] ++ dec i.range ++ [' '] ++ printSwaps vec

/-- The loops over hashes in both `Print` functions with the end of the line (src/batchproof.cpp:120-124 and 219-223). -/
def printHashes : List Hash32 → Text
  | [] => ['\n']
  | h :: hs => hexStr h.1 ++ [',', ' '] ++ printHashes hs

/-- `BatchProof::Print` (src/batchproof.cpp:114-125). -/
def printProof (p : BatchProof Hash32) : Text :=
  ['t', 'a', 'r', 'g', 'e', 't', 's', ':', ' '] ++ printVector p.targets ++
  ['p', 'r', 'o', 'o', 'f', ':', ' '] ++ printHashes p.hashes

/-- `UndoBatch::Print` (src/batchproof.cpp:212-224). It reads `m_num_additions`, which may be uninitialised. -/
def printUndo (o : Object.UndoObj) : Res Text := do
  let n ← o.getNumAdds
  return ['p', 'r', 'e', 'v', ' ', 'n', 'u', 'm', ' ', 'a', 'd', 'd', 's', ':', ' '] ++ dec n ++ ['\n'] ++
    ['d', 'e', 'l', 'e', 't', 'e', 'd', ' ', 'p', 'o', 's', 'i', 't', 'i', 'o', 'n', 's', ':', ' '] ++ printVector o.positions ++
    ['d', 'e', 'l', 'e', 't', 'e', 'd', ' ', 'h', 'a', 's', 'h', 'e', 's', ':', ' '] ++ printHashes o.hashes

/-- The loop of `PrintPositionMap` (src/accumulator.cpp:85-87) over the entries in the order in which they are visited. -/
def printEntries : List (Hash32 × Nat) → Text
  | [] => []
  | (h, p) :: es => hexStr h.1 ++ [' ', '-', '>', ' '] ++ dec p ++ ['\n'] ++ printEntries es

/-- `Accumulator::PrintPositionMap` (src/accumulator.cpp:82-88). The order in which an `unordered_map` is traversed is not specified;
`order` is the list of its entries in that order. -/
def printPositionMap (order : List (Hash32 × Nat)) : Text :=
  ['p', 'o', 's', ' ', 'm', 'a', 'p', ':', '\n'] ++ printEntries order

/-- The loop of `PrintRoots` (src/accumulator.cpp:92-94). `hex` is `HexStr` on the type of hashes. -/
def printRootsLoop {H N X : Type} (vt : VT H N X) (hex : H → Text) (s : Acc H N X) : List N → Res Text
  | [] => .ok []
  | r :: rs => do
    let h ← vt.nodeHash s r
    let rest ← printRootsLoop vt hex s rs
    return ['r', 'o', 'o', 't', ':', ' '] ++ dec (vt.nodePos r) ++ [':'] ++ hex h ++ ['\n'] ++ rest

/-- `Accumulator::PrintRoots` (src/accumulator.cpp:90-95). -/
def printRoots {H N X : Type} (vt : VT H N X) (hex : H → Text) (s : Acc H N X) : Res Text := printRootsLoop vt hex s s.roots

end Print
end Utreexo
