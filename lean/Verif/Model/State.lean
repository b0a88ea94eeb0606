import Verif.Model.C

/-!
# Model of `ForestState` (src/state.h, src/state.cpp)

Positions, leaf counts and targets are `Nat`s (meant to be `< 2^64`); `uint8_t` rows are
`Nat`s.  The state object is just its leaf count `n` (`m_num_leaves`, state.h:45).
All loops are written with a fuel argument large enough for every run (proved in
`Verif/Proof`); running out of fuel is reported as undefined behaviour so that it could
never be mistaken for a normal result.
-/

namespace Utreexo

/-! ## Bit counting -/

/-- The portable loop of `CountBits` (src/crypto/common.h:95-100):
`while (x) { x >>= 1; ++ret; }`. -/
def countBitsLoop : Nat → Nat → Nat → Nat
  | 0, _, ret => ret
  | fuel + 1, x, ret => if x = 0 then ret else countBitsLoop fuel (x >>> 1) (ret + 1)

/-- `CountBits` (src/crypto/common.h:83-101).  The `__builtin_clz` branches return
`64 - clz(x)`, the same value. A 64-bit value needs at most 64 iterations. -/
def countBits (x : Nat) : Nat := countBitsLoop 64 x 0

/-- `trailingOnes` (src/state.cpp:28-46). The final conversion to `uint8_t` is exact. -/
def trailingOnes (n : Nat) : Nat :=
  let b := not64 n &&& wrap64 (n + 1)
  let b := sub64 b 1
  let b := wrap64 ((b &&& 0x5555555555555555) + ((b >>> 1) &&& 0x5555555555555555))
  let b := wrap64 ((b &&& 0x3333333333333333) + ((b >>> 2) &&& 0x3333333333333333))
  let b := wrap64 ((b &&& 0x0f0f0f0f0f0f0f0f) + ((b >>> 4) &&& 0x0f0f0f0f0f0f0f0f))
  let b := wrap64 ((b &&& 0x00ff00ff00ff00ff) + ((b >>> 8) &&& 0x00ff00ff00ff00ff))
  let b := wrap64 ((b &&& 0x0000ffff0000ffff) + ((b >>> 16) &&& 0x0000ffff0000ffff))
  let b := wrap64 ((b &&& 0x00000000ffffffff) + ((b >>> 32) &&& 0x00000000ffffffff))
  b % 256

/-- `trailingZeros` (src/state.cpp:48-51). -/
def trailingZeros (n : Nat) : Nat := trailingOnes (not64 n)

namespace St

/-! ## Rows -/

/-- `_numRows` / `ForestState::NumRows` (src/state.cpp:311-321). -/
def numRows (n : Nat) : Nat := if n = 0 then 0 else countBits (n - 1)

/-- `_maxNodes` / `ForestState::MaxNodes` (src/state.cpp:409-410): `(2ULL << rows) - 1`. -/
def maxNodes (n : Nat) : Res Nat := do
  let m ← shl64 2 (numRows n)
  return sub64 m 1

/-- The loop of `DetectRow` (src/state.cpp:328-330). The marker has at most 64 bits. -/
def detectRowLoop : Nat → Nat → Nat → Nat → Res Nat
  | 0, _, _, _ => .error .ub
  | fuel + 1, pos, marker, row =>
    if pos &&& marker = 0 then .ok row else detectRowLoop fuel pos (marker >>> 1) (row + 1)

/-- `ForestState::DetectRow` (src/state.cpp:323-333). -/
def detectRow (n pos : Nat) : Res Nat := do
  let marker ← shl64 1 (numRows n)
  detectRowLoop 66 pos marker 0

/-- `ForestState::RowOffset(uint8_t row)` (src/state.cpp:340-344). -/
def rowOffsetOfRow (n row : Nat) : Res Nat := do
  let marker ← maxNodes n
  let x ← shl64 0xFFFFFFFFFFFFFFFF ((numRows n : Int) + 1 - row)
  return x &&& marker

/-- `ForestState::RowOffset(uint64_t pos)` (src/state.cpp:335-338). -/
def rowOffset (n pos : Nat) : Res Nat := do
  let row ← detectRow n pos
  rowOffsetOfRow n row

/-! ## Positions -/

/-- `ForestState::Parent` (src/state.cpp:61-64). -/
def parent (n pos : Nat) : Res Nat := do
  let m ← shl64 1 (numRows n)
  return (pos >>> 1) ||| m

/-- `ForestState::Ancestor` (src/state.cpp:66-75). -/
def ancestor (n pos rise : Nat) : Res Nat :=
  if rise = 0 then .ok pos else do
    let rows := numRows n
    let mask ← maxNodes n
    let a ← shr64 pos rise
    let b ← shl64 mask ((rows : Int) - ((rise : Int) - 1))
    return (a ||| b) &&& mask

/-- `ForestState::LeftChild` (src/state.cpp:77-81). `CHECK_SAFE` (check.h:26-29) is a no-op in
normal builds and is not modelled. -/
def leftChild (n pos : Nat) : Res Nat := do
  let mask ← maxNodes n
  return wrap64 (pos <<< 1) &&& mask

/-- `ForestState::Child` (src/state.cpp:83-86). -/
def child (n pos placement : Nat) : Res Nat := do
  let l ← leftChild n pos
  return l ||| placement

/-- `ForestState::LeftDescendant` (src/state.cpp:88-98). -/
def leftDescendant (n pos drop : Nat) : Res Nat :=
  if drop = 0 then .ok pos else do
    let mask ← maxNodes n
    let x ← shl64 pos drop
    return x &&& mask

/-- `ForestState::Cousin` (src/state.cpp:100). -/
def cousin (pos : Nat) : Nat := pos ^^^ 2

/-- `ForestState::RightSibling` (src/state.cpp:102). -/
def rightSibling (pos : Nat) : Nat := pos ||| 1

/-- `ForestState::Sibling` (src/state.cpp:104). -/
def sibling (pos : Nat) : Nat := pos ^^^ 1

/-- The loop of `Path` (src/state.cpp:135-143). `rows` is a `uint8_t`: decrementing below zero
gives 255 and the next shift is undefined. -/
def pathLoop : Nat → Nat → Nat → Nat → Nat → Nat → Res (Nat × Nat × Nat)
  | 0, _, _, _, _, _ => .error .ub
  | fuel + 1, n, pos, row, rows, bigger => do
    let a ← shl64 pos row
    let m ← shl64 2 rows
    let c ← shl64 1 rows
    let treeSize := c &&& n
    if (a &&& sub64 m 1) ≥ treeSize then
      let pos' := if treeSize ≠ 0 then sub64 pos treeSize else pos
      let bigger' := if treeSize ≠ 0 then bigger + 1 else bigger
      pathLoop fuel n pos' row (if rows = 0 then 255 else rows - 1) bigger'
    else
      return (bigger, (rows + 256 - row) % 256, not64 pos)

/-- `ForestState::Path` (src/state.cpp:106-146): (tree index, path length, path bits). -/
def path (n pos : Nat) : Res (Nat × Nat × Nat) := do
  let row ← detectRow n pos
  pathLoop 66 n pos row (numRows n) 0

/-- `ForestState::RootIndex` (src/state.cpp:301-306). -/
def rootIndex (n pos : Nat) : Res Nat := do
  let p ← path n pos
  return p.1

/-! ## Roots -/

/-- `std::bitset<64>::count`. -/
def popcountLoop : Nat → Nat → Nat
  | 0, _ => 0
  | fuel + 1, x => x % 2 + popcountLoop fuel (x / 2)

/-- `ForestState::NumRoots` (src/state.cpp:250-254). -/
def numRoots (n : Nat) : Nat := popcountLoop 64 n

/-- `_hasRoot` / `ForestState::HasRoot` (src/state.cpp:256-264). -/
def hasRoot (n row : Nat) : Res Bool := do
  let x ← shr64 n row
  return x &&& 1 ≠ 0

/-- `_rootPosition` (src/state.cpp:266-272). -/
def rootPositionIn (row numLeaves rows : Nat) : Res Nat := do
  let m ← shl64 2 rows
  let mask := sub64 m 1
  let hi ← shl64 mask ((row : Int) + 1)
  let before := numLeaves &&& hi
  let a ← shr64 before row
  let b ← shl64 mask ((rows : Int) + 1 - row)
  return (a ||| b) &&& mask

/-- `ForestState::RootPosition` (src/state.cpp:274-277). -/
def rootPosition (n row : Nat) : Res Nat := rootPositionIn row n (numRows n)

/-- The loop of `RootPositions` (src/state.cpp:282-286, 293-297), `row` counting down; the
`uint8_t` counter leaves the loop by wrapping to 255. `k` is `row + 1`. -/
def rootPositionsLoop (numLeaves rows : Nat) : Nat → Res (List Nat)
  | 0 => .ok []
  | k + 1 =>
    if k < 64 then do
      if (← hasRoot numLeaves k) then
        let p ← rootPositionIn k numLeaves rows
        let rest ← rootPositionsLoop numLeaves rows k
        return p :: rest
      else rootPositionsLoop numLeaves rows k
    else .ok []

/-- `ForestState::RootPositions(uint64_t num_leaves)` (src/state.cpp:290-299). -/
def rootPositionsOf (n numLeaves : Nat) : Res (List Nat) :=
  rootPositionsLoop numLeaves (numRows n) (numRows n + 1)

/-- `ForestState::RootPositions()` (src/state.cpp:279-288). -/
def rootPositions (n : Nat) : Res (List Nat) := rootPositionsOf n n

/-! ## Proof positions -/

/-- The inner `while (start < end)` loop of `ProofPositions` (src/state.cpp:175-237) on the
targets of one row. Returns (proof positions appended, next row targets). -/
def proofRow (n : Nat) : List Nat → Res (List Nat × List Nat)
  | [] => .ok ([], [])
  | a :: b :: c :: d :: rest =>
    -- size > 3
    if cousin (rightSibling a) = rightSibling d then do
      let pa ← parent n a
      let pd ← parent n d
      let (pf, nx) ← proofRow n rest
      return (pf, pa :: pd :: nx)
    else if cousin (rightSibling a) = rightSibling c then do
      let p := if rightSibling b = rightSibling a then sibling c else sibling a
      let pa ← parent n a
      let pc ← parent n c
      let (pf, nx) ← proofRow n (d :: rest)
      return (p :: pf, pa :: pc :: nx)
    else if rightSibling a = b then do
      let pa ← parent n a
      let (pf, nx) ← proofRow n (c :: d :: rest)
      return (pf, pa :: nx)
    else if cousin (rightSibling a) = rightSibling b then do
      let pa ← parent n a
      let pb ← parent n b
      let (pf, nx) ← proofRow n (c :: d :: rest)
      return (sibling a :: sibling b :: pf, pa :: pb :: nx)
    else do
      let pa ← parent n a
      let (pf, nx) ← proofRow n (b :: c :: d :: rest)
      return (sibling a :: pf, pa :: nx)
  | [a, b, c] =>
    -- size > 2
    if cousin (rightSibling a) = rightSibling c then do
      let p := if rightSibling b = rightSibling a then sibling c else sibling a
      let pa ← parent n a
      let pc ← parent n c
      return ([p], [pa, pc])
    else if rightSibling a = b then do
      let pa ← parent n a
      let (pf, nx) ← proofRow n [c]
      return (pf, pa :: nx)
    else if cousin (rightSibling a) = rightSibling b then do
      let pa ← parent n a
      let pb ← parent n b
      let (pf, nx) ← proofRow n [c]
      return (sibling a :: sibling b :: pf, pa :: pb :: nx)
    else do
      let pa ← parent n a
      let (pf, nx) ← proofRow n [b, c]
      return (sibling a :: pf, pa :: nx)
  | [a, b] =>
    -- size > 1
    if rightSibling a = b then do
      let pa ← parent n a
      return ([], [pa])
    else if cousin (rightSibling a) = rightSibling b then do
      let pa ← parent n a
      let pb ← parent n b
      return ([sibling a, sibling b], [pa, pb])
    else do
      let pa ← parent n a
      let (pf, nx) ← proofRow n [b]
      return (sibling a :: pf, pa :: nx)
  | [a] => do
    let pa ← parent n a
    return ([sibling a], [pa])

/-- Dropping the row's root from the end of the row's targets (src/state.cpp:169-173). -/
def dropRootTarget (n row : Nat) (targets : List Nat) : Res (List Nat) := do
  if (← hasRoot n row) then
    match targets.getLast? with
    | none => return targets
    | some t => if t = (← rootPosition n row) then return targets.dropLast else return targets
  else return targets

/-- The outer loop of `ProofPositions` (src/state.cpp:166-243) for `k` remaining rows starting
at `row`. Returns (proof, computed). -/
def proofRows (n : Nat) : Nat → Nat → List Nat → Res (List Nat × List Nat)
  | 0, _, _ => .ok ([], [])
  | k + 1, row, targets => do
    let ts ← dropRootTarget n row targets
    let (pf, nx) ← proofRow n ts
    let (pf', comp') ← proofRows n k (row + 1) nx
    return (pf ++ pf', targets ++ comp')

/-- `ForestState::ProofPositions` (src/state.cpp:148-246): (proof, computed). -/
def proofPositions (n : Nat) (targets : List Nat) : Res (List Nat × List Nat) :=
  proofRows n (numRows n + 1) 0 targets

/-! ## Target sanity -/

/-- `IsSortedNoDupes` (src/state.cpp:414-423): compares neighbours `targets[i] >= targets[i+1]`
for `i < size - 1`. For the empty vector `size() - 1` wraps around and the first iteration would
read out of bounds; this is a distinct outcome. -/
def isSortedNoDupes : List Nat → Res Bool
  | [] => .error .ub
  | [_] => .ok true
  | a :: b :: rest => if a ≥ b then .ok false else isSortedNoDupes (b :: rest)

/-- `ForestState::CheckTargetsSanity` (src/state.cpp:425-450). -/
def checkTargetsSanity (n : Nat) (targets : List Nat) : Res Bool :=
  if targets.length = 0 then .ok true
  else if n < targets.length then .ok false
  else do
    if !(← isSortedNoDupes targets) then return false
    else
      match targets.getLast? with
      | none => .error .ub
      | some t => if t ≥ n then return false else return true

/-! ## The remove transformation -/

/-- `ForestState::Swap` (src/state.h:21-41). -/
structure Swap where
  src : Nat
  dst : Nat
  collapse : Bool := false
  isRange : Bool := false
  range : Nat := 0
  deriving DecidableEq, Repr

/-- The loop of `ComputeNextRowTargets` (src/state.cpp:461-478). `cnt` is
`targets_without_siblings.size()`. Returns (parents, targets without siblings). -/
def nextRowLoop (n : Nat) : List Nat → Nat → Res (List Nat × List Nat)
  | [], _ => .ok ([], [])
  | [a], cnt => do
    if (cnt + 1) % 2 = 0 then return ([← parent n a], [a]) else return ([], [a])
  | a :: b :: rest, cnt =>
    if rightSibling a = b then do
      let pa ← parent n a
      let (ps, ws) ← nextRowLoop n rest cnt
      return (pa :: ps, ws)
    else do
      let (ps, ws) ← nextRowLoop n (b :: rest) (cnt + 1)
      if (cnt + 1) % 2 = 0 then return ((← parent n a) :: ps, a :: ws) else return (ps, a :: ws)

/-- `ForestState::ComputeNextRowTargets` (src/state.cpp:454-485). `back()` of an empty vector is
undefined behaviour. -/
def computeNextRowTargets (n : Nat) (targets : List Nat) (deletionRemains rootPresent : Bool) :
    Res (List Nat × List Nat) := do
  let (ps, ws) ← nextRowLoop n targets 0
  if deletionRemains && !rootPresent then
    match ws.getLast? with
    | none => .error .ub
    | some t => return (ps ++ [← parent n t], ws)
  else return (ps, ws)

/-- The loop of `MakeSwaps` (src/state.cpp:497-509) including the final root swap. `start[0]` past
the end is undefined behaviour. -/
def makeSwaps (deletionRemains rootPresent : Bool) (rootPos : Nat) : List Nat → Res (List Swap)
  | [] => if deletionRemains && rootPresent then .error .ub else .ok []
  | [a] => .ok (if deletionRemains && rootPresent then [{ src := rootPos, dst := a }] else [])
  | a :: b :: rest => do
    let r ← makeSwaps deletionRemains rootPresent rootPos rest
    return { src := sibling b, dst := a } :: r

/-- `ForestState::MakeCollapse` (src/state.cpp:514-539). -/
def makeCollapse (n : Nat) (targets : List Nat) (deletionRemains rootPresent : Bool)
    (row nextNumLeaves : Nat) : Res Swap := do
  let rootDest ← rootPositionIn row nextNumLeaves (numRows n)
  if !deletionRemains && rootPresent then
    return { src := (← rootPosition n row), dst := rootDest, collapse := true }
  else if deletionRemains && !rootPresent then
    match targets.getLast? with
    | none => .error .abort
    | some t => return { src := sibling t, dst := rootDest, collapse := true }
  else return { src := 0, dst := 0 }

/-- Insertion into an ascending list; used to model `std::sort` on `uint64_t`. -/
def insertSorted (x : Nat) : List Nat → List Nat
  | [] => [x]
  | y :: ys => if x ≤ y then x :: y :: ys else y :: insertSorted x ys

/-- `std::sort` on a vector of `uint64_t` (any correct sorting algorithm gives the same list). -/
def sortU64 : List Nat → List Nat
  | [] => []
  | x :: xs => insertSorted x (sortU64 xs)

/-- The main loop of `Transform` (src/state.cpp:361-383): `k` rows remain, the current one is
`row`. Returns the swaps and the collapse of each visited row. -/
def transformRows (n nextNumLeaves : Nat) : Nat → Nat → List Nat → Res (List (List Swap) × List Swap)
  | 0, _, _ => .ok ([], [])
  | k + 1, row, targets =>
    match targets.getLast? with
    | none => .ok ([], [])
    | some last => do
      let rp0 ← hasRoot n row
      let rootPos ← rootPosition n row
      let popped := rp0 && last == rootPos
      let ts := if popped then targets.dropLast else targets
      let rootPresent := rp0 && !popped
      let deletionRemains := ts.length % 2 ≠ 0
      let (ps, ws) ← computeNextRowTargets n ts deletionRemains rootPresent
      let sw ← makeSwaps deletionRemains rootPresent rootPos ws
      let col ← makeCollapse n ws deletionRemains rootPresent row nextNumLeaves
      let (sws, cols) ← transformRows n nextNumLeaves k (row + 1) (sortU64 ps)
      return (sw :: sws, col :: cols)

/-- `ForestState::SwapIfDescendant` (src/state.cpp:588-598). -/
def swapIfDescendant (n : Nat) (swap collapse : Swap) (swapRow collapseRow : Nat) : Res Swap := do
  let rowDiff := (swapRow + 256 - collapseRow) % 256
  let anc ← ancestor n collapse.dst rowDiff
  if (anc == swap.src) != (anc == swap.dst) then
    let x ← shl64 (swap.src ^^^ swap.dst) rowDiff
    return { collapse with dst := collapse.dst ^^^ x }
  else return collapse

/-- `ForestState::SwapInRow` (src/state.cpp:575-586), on the prefix of `collapses` below
`swapRow`; `collapseRow` is the row of the head of the list. `collapses.at` cannot throw because
`swapRow` is a valid index there. -/
def swapInRow (n : Nat) (swap : Swap) (swapRow : Nat) : Nat → List Swap → Res (List Swap)
  | _, [] => .ok []
  | collapseRow, c :: cs =>
    if collapseRow < swapRow then do
      let c' ← if c.collapse then swapIfDescendant n swap c swapRow collapseRow else pure c
      let cs' ← swapInRow n swap swapRow (collapseRow + 1) cs
      return c' :: cs'
    else .ok (c :: cs)

/-- All swaps of one row applied to the collapses below (src/state.cpp:551-554). -/
def swapsInRow (n swapRow : Nat) : List Swap → List Swap → Res (List Swap)
  | [], cols => .ok cols
  | s :: ss, cols => do
    let cols' ← swapInRow n s swapRow 0 cols
    swapsInRow n swapRow ss cols'

/-- The loop of `ConvertCollapses` (src/state.cpp:550-563), `row` counting down to 1. -/
def convertLoop (n : Nat) (swaps : List (List Swap)) : Nat → List Swap → Res (List Swap)
  | 0, cols => .ok cols
  | row + 1, cols => do
    let rowSwaps ← vecAt swaps (row + 1)
    let cols' ← swapsInRow n (row + 1) rowSwaps cols
    let col ← vecAt cols' (row + 1)
    let cols'' ← if col.collapse then swapInRow n col (row + 1) 0 cols' else pure cols'
    convertLoop n swaps row cols''

/-- Appending the collapses to the rows' swaps (src/state.cpp:565-572). `swaps` and `collapses`
have equal length in `Transform`; `swaps.at(row)` would throw otherwise. -/
def appendCollapses : List (List Swap) → List Swap → Res (List (List Swap))
  | sws, [] => .ok sws
  | [], c :: cs =>
    if c.src ≠ c.dst ∧ c.collapse then .error .exc else appendCollapses [] cs
  | sw :: sws, c :: cs => do
    let rest ← appendCollapses sws cs
    return (if c.src ≠ c.dst ∧ c.collapse then sw ++ [c] else sw) :: rest

/-- `ForestState::ConvertCollapses` (src/state.cpp:541-573). -/
def convertCollapses (n : Nat) (swaps : List (List Swap)) (cols : List Swap) :
    Res (List (List Swap)) :=
  if cols.length = 0 then .ok swaps else do
    let cols' ← convertLoop n swaps (cols.length - 1) cols
    appendCollapses swaps cols'

/-- `ForestState::Transform` (src/state.cpp:348-389). -/
def transform (n : Nat) (targets : List Nat) : Res (List (List Swap)) := do
  let (sws, cols) ← transformRows n (sub64 n targets.length) (numRows n) 0 targets
  convertCollapses n sws cols

/-- `ForestState::Swap::ToLeaves` (src/state.cpp:601-612). -/
def toLeaves (n : Nat) (s : Swap) : Res Swap := do
  let row ← detectRow n s.src
  if row = 0 then return s
  else
    let a ← leftDescendant n s.src row
    let b ← leftDescendant n s.dst row
    let r ← shl64 1 row
    return { src := a, dst := b, isRange := true, range := r }

/-- One row of `UndoTransform` (src/state.cpp:398-401). -/
def undoRow (n : Nat) : List Swap → Res (List Swap)
  | [] => .ok []
  | s :: ss =>
    if s.src = s.dst then undoRow n ss else do
      let s' ← toLeaves n s
      let ss' ← undoRow n ss
      return s' :: ss'

/-- The row loop of `UndoTransform` (src/state.cpp:396-402). -/
def undoRows (n : Nat) : List (List Swap) → Res (List Swap)
  | [] => .ok []
  | r :: rs => do
    let a ← undoRow n r
    let b ← undoRows n rs
    return a ++ b

/-- `ForestState::UndoTransform` (src/state.cpp:391-405). -/
def undoTransform (n : Nat) (targets : List Nat) : Res (List Swap) := do
  let prev ← transform n targets
  undoRows n prev

end St
end Utreexo
