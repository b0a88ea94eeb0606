# Formal model of libutreexo in Lean 4

The code in `/repo` is read as text and transcribed, function by function, into total computable
Lean functions (`lean/Verif/Model`). Specifications that do not mention the model are in
`lean/Verif/Spec`, helper lemmas in `lean/Verif/Proof`, and the property theorems in
`lean/Verif/Props`. `properties.jsonl` holds the claims, `MANIFEST.json` maps them to theorems.

## Trusted base

* Lean 4.33.0's kernel. No axioms are added. Every theorem depends on at most `propext`,
  `Classical.choice` and `Quot.sound` (listed by `#print axioms`, see the end of this file).
  There is no `sorry`, `admit`, `native_decide` or `bv_decide`.
* The transcription from C++ to Lean. Each definition cites the lines it transcribes. The model was
  executed on the recorded values of `/repo/src/test` (e.g. the root hashes of the `simple` test,
  `CountNodes() == 10` and `NumCachedLeaves() == 2` of `simple_posmap_updates`).
* For statements involving hashes, nothing is assumed about the hash function: `H` and
  `ph : H → H → H` are arbitrary. Soundness is stated as "or here is a collision of `ph`".

## How C++ is represented

* A function that can misbehave returns `Res α = Except Fault α`. The faults are `ub` (undefined
  behaviour: bad shift, out-of-bounds access, null dereference, signed overflow), `abort` (a failed
  `assert`) and `exc` (a thrown exception). A theorem `f x = .ok y` therefore also says that no
  undefined behaviour, assertion failure or exception happens.
* `uint64_t` is `Nat` with explicit reduction modulo `2^64` where an operation can wrap.
  `uint8_t` rows are `Nat` with explicit reduction where they can wrap.
* Shifts take the promoted `int` count and fault when it is negative or at least 64. The `1 << row`
  of `RamForest::SwapSubTrees` is an `int` shift and faults from row 31.
* `std::vector` is `List`; `v[i]` faults with `ub` and `v.at(i)` with `exc` out of range.
* `std::unordered_map` is an association list with unique keys (`PosMap.Exact.uniq` for forests,
  `Sync.uniq` for pollards). `ComparePositionMap` and `PrintPositionMap` iterate
  over it; their results over all orders are given by `C49_exact` and `C67_map`. C71 shows that no other result depends on the
  order, and that a hash table with `LeafHasher` refines the list (`Model/Table.lean`; when it grows is left open).
* Counters and sizes are unbounded in the main model. The `int`s of `ProofPositions`, `Prove`, `Verify`, `BuildUndoBatch` and
  `Undo` are in `Model/Counters.lean`; C64 shows that they make no difference below `2^31` elements. Those of the codecs,
  `Commit` and `Restore` are part of the main model.
* Loops without a structural bound carry fuel. Running out of fuel is a fault, so `= .ok` theorems
  include termination within it.
* The virtual functions of `Accumulator` are a record `VT`; `Add`, `Remove`, `Prove` are written once
  against it, and instantiated for `RamForest` and `Pollard`.
* `Pollard::InternalNode` objects live in an explicit heap, pointers are indices, `nullptr` is `none`.
* `CHECK_SAFE` is a no-op (as in a normal build); `assert` is active. The functions of a build with
  `UTREEXO_VERIFY`, where `CHECK_SAFE` aborts, are a second model (`Model/Checked.lean`) used by C51 only.
* A `Pollard::Node` object is an `PEntry` (node pointer, sibling pointer, position) with the list of
  its ancestors in place of the parent pointer; the node objects of a proof tree live in an arena,
  because `Verify` changes their flags through several pointers. Reference counts are not stored:
  `NumCachedLeaves()` (the `use_count` of `m_remember` minus one) counts the references reachable
  from the roots, and unreachable objects stay in the list that models the heap. C47 justifies this:
  there are no cycles, so reference counting keeps exactly the reachable objects, and the two counters
  are the numbers of kept objects and of references to `m_remember`. (Between API calls; the handles
  that local variables hold during a call are not counted.)
* `Commit` is the list of its `write` calls; a crash point is a prefix of the bytes written.
  `Restore` reads the file with bounds checks. Destroying a forest and opening its file again is
  `Ram.reopen` on the state (`C31_reopen` ties it to the bytes).
* The printing functions (`Model/Print.lean`) give the characters written to `std::cout`, which is assumed to be in its default state
  and not to fail.
* The byte order of the host is a parameter of every codec and of the hash function.

## What is not modelled

Memory exhaustion, the stack that destructors take during a call (for `~Pollard` it is modelled in `Model/Free.lean`), the buffer of `std::fstream` (its errors are
modelled in `Model/Stream.lean`, as if every write reached the file or failed at once), the CMake/autotools configuration, and the
test programs other than those of the accumulators. `simple_blockchain` is modelled as a function of its sizes and random numbers that
returns the results of its checks (`Model/Tests.lean`), the other tests of src/test/accumulator_tests.cpp as functions of their sizes and
leaves (`Model/Suite.lean`; the comparisons with constants are in `Props/Conform.lean`, as are the tests of src/test/state_tests.cpp).
The fuzz targets are modelled as functions of the input bytes (`Model/Fuzz.lean`), the benchmarks as functions of the size, the number of repetitions and the random numbers
(`Model/Bench.lean`); the measuring is not; the options of the benchmark program are (`Model/Args.lean`), and so is the code that registers and selects the benchmarks (`Model/Runner.lean`); regular expressions and the rounding of a decimal number to a `double` are parameters.
What a call costs is modelled as the number of calls of the functions that make, merge, swap and rehash nodes
(`Model/Work.lean`) and of the leaf positions looked up (`Model/Scan.lean`); the work of the containers is not counted.
The memory of C74 is what `reserve` requests in the decoders and the node objects of a verification (`Model/Alloc.lean`); the temporary
vectors of positions and the overhead of the allocator are not counted.
`CountBits` is modelled both by its loop and by its documented result.

## Plan per property

| id | modelled | proof |
|----|----------|-------|
| C01 | `NumRows`, `NumRoots`, `HasRoot`, `MaxNodes` | least `h` characterisation, digit sum, `testBit` |
| C02 | `DetectRow`, `RowOffset` | bits of `2^(R+1) - 2^(R+1-r) + i`, loop invariant |
| C03 | all navigation functions | coordinate lemma for each, iteration by induction |
| C04 | `RootPositions` | induction on rows, against the list of one bits |
| C05 | `Path`, `RootIndex` | loop invariant over rows |
| C06 | shifts in all of the above | consequence of `= .ok`; `2^62 + 1` as counterexample above the bound |
| C07 | `CheckTargetsSanity` | decision logic, both directions |
| C08 | `ProofPositions` | induction on rows against "ancestor of a target" |
| C09 | `Transform` | per-row permutations, induction from the top row |
| C10, C11, C12 | `BatchProof::(Un)Serialize` with bounds-checked reads | parser/printer lemmas; every input decided (`C12_exact`) |
| C13 | same | false; refuted by a witness, proved for fresh objects |
| C14 | `UndoBatch::(Un)Serialize` | as C10 |
| C15 | same | false (32-bit length check wraps); refuted, proved for short inputs; every input decided (`C15_exact`) |
| C16-C19 | `RamForest` | data refinement to a leaf list; invariant over histories |
| C20, C21 | `RamForest::Undo` | C09 reversed, rehash invariant, induction over histories |
| C22 | `Accumulator::Prove` on `RamForest` | refinement |
| C23 | `Pollard` and `RamForest` in lock step | simulation invariant |
| C24-C27 | `Pollard::Verify` on the heap | invariants of the two passes |
| C28, C29 | `Pollard::Prune`, constructor from roots | heap lemmas, instance of C24 |
| C30 | `Pollard` | false; refuted by a concrete history. Exact: which leaves are remembered, readable and recorded where is a small machine on lists of leaves (`Spec/Memo.lean`); invariant over all histories, rejected proofs included (`C30_refused`: a rejected proof leaves the flags of a prefix of its targets), and a remembered leaf is provable iff the machine has its position. `Props/Single.lean`: the leaves after a deletion come in pairs that were neighbours before or had both lost their neighbour (`Proof/Pairs.lean`), so a leaf whose neighbour stays keeps its record (`C30_steady_partial`), and a single deletion spoils no record |
| C31 | `Commit`, `Restore` | round trip |
| C32 | `Commit` as a list of writes | false; refuted by a concrete crash point; all crash points characterised (`C32_exact`) |
| C33, C34 | `CSHA512` | unrolled rounds against the FIPS 180-4 recurrence; chunking invariant |
| C35 | codecs of `crypto/common.h`, both byte orders | bit-level lemmas |
| C36 | `CSHA512::Reset` | false; refuted, proved for the SHA-512 variant; exact for every hasher (`C36_exact`) |
| C37 | `RamForest::Verify` | false; refuted, what it computes is proved |
| C38 | `Commit`, `Restore`, `Undo` | false; refuted, proved when no row is lost, undefined in every other case (`C38_taller`) |
| C39 | `Accumulator::Prove` on `Pollard` | invariant of the position map over histories |
| C40 | `Pollard::Verify` | invariant of `CreateProofTree` in both directions: the hashes still to read fit the nodes still to visit |
| C41, C42 | `CountNodes`, `NumCachedLeaves` on `Pollard` | invariant: a child is cached iff a leaf below its parent is remembered; flags follow their leaves exactly; a rejected proof sets those of a prefix of its targets and no others |
| C43, C44 | `Roots`, `Verify`, SHA-512/256 | Merkle induction down the trees; instantiation with the hash of C33 |
| C45, C46 | `Prove`/`Serialize`/`Unserialize`/`Verify`, `Modify`/`Undo` with bytes between | composition of C10–C14, C20–C26, C40; size of proofs by counting |
| C47 | `shared_ptr` references between `InternalNode`s | rank invariant over all objects ever allocated; the reachable ones are the only fixed point of counting |
| C48 | `operator==` of `RamForest`, `UndoBatch`, `BatchProof` | from C16: the position map determines the leaves |
| C49 | `ComparePositionMap` | false; refuted, all outcomes between forests over all orders of iteration decided, proved for a pollard against its forest (unique keys by a pass over all functions) |
| C50 | `RamForest::Undo` | false; refuted, proved for all batches that fit: they are undo batches of a forest that is constructed. Exactly characterised below `2^32` leaves |
| C51 | all functions with `CHECK_SAFE` | false; refuted for `Verify` after a rejected proof, proved otherwise by simulation of the two builds; the verifications that abort are characterised exactly (Props/Fire) |
| C52 | `Pollard::Verify` then `Modify` | part of the histories of C23; induction over the calls of `Verify` |
| C53 | `Pollard` `Modify` without `Verify` | false; refuted by three histories, proved when verified or all remembered, when the pollard has all nodes above the targets and their siblings, and for single remembered leaves with their siblings' objects; for single remembered leaves the crash is characterised exactly |
| C54 | fuzz targets `batchproof`, `pollard` | C11, C12; C22–C24 and C40, the run itself exhibits the break of the hash otherwise |
| C55 | `ProofPositions`, `Transform`, `UndoTransform`, `CheckTargetsSanity`, fuzz target `forest_state` | false above `2^62` leaves; proved for all lists of targets below, decided exactly above |
| C56 | `Modify` of both, `ForestState::Transform` | separate rule on lists of trees (`Spec/Delete.lean`); a row of the rule is one row of swaps and a collapse, induction over the rows |
| C57 | `RamForest(file)`, `Restore`, `Prove` | file layout (`Spec/Disk.lean`), row by row; each inner node is in the proof of a leaf under its sibling |
| C58 | the constructors, `Commit` in the destructor | nothing can be read or swapped in an object without nodes; the assertion on the position map; roots counted by digit sums |
| C59 | a node that connects, disconnects and restarts | a stack of connected blocks next to the stack of batches; C56 for each block, C21 for each undo; restarts keep a prefix of the batches |
| C60 | `Accumulator::Prove` on `Pollard`, `Prune` | the read nodes are those of the forest; C22 for the leaves at the recorded positions; C24, C25 |
| C61 | `RamForest::Add`, `Accumulator::Modify` on `RamForest` | both are parts of `RamForest::Modify`; C17, C19, C20, C56 |
| C62 | the implicit copy of `Pollard` (`Model/Copy.lean`) | false; refuted for additions and deletions, `Prune` fails on every copy, proved for `Verify`, for additions that complete no tree or go to a pollard with nothing but its roots, and for deletions of whole trees from the end |
| C63 | `RamForest::SwapSubTrees` from `2^32` leaves on (`Proof/RamLarge.lean`) | exact: undefined if and only if a swap is in row 31 or above; sharp bound |
| C64 | the `int` sizes and counters (`Model/Counters.lean`) | equality with the main model below `2^31` by induction on the loops; undefined or wrong above |
| C65 | proof and undo objects over sequences of calls (`Model/Object.lean`), with indeterminate members | false; refuted, the contents after every sequence of calls given by a specification on bytes (`Spec/Decode.lean`) |
| C66 | `PrintRoots`, `SetPosition` of the roots (`Model/Print.lean`) | false; refuted, the numbering of each root followed through every call (`Spec/Print.lean`), exact conditions for right positions |
| C67 | `BatchProof::Print`, `UndoBatch::Print`, `PrintPositionMap`, `PrintRoots`, `HexStr`, `print_swaps` | texts given by a specification; each can be read back |
| C68 | `Prove`, `Verify` on rearranged hashes | C22, C24, C25; a fault of `Verify` does not depend on the hashes (`Proof/PolAnswer.lean`) |
| C69 | the benchmarks (`Model/Bench.lean`) | false for `VerifyElementsPollard`; refuted with SHA-512/256, the others by C17, C18, C22, C29, C31, C61; the shuffle by induction |
| C70 | the size of `Prove`'s result | minimality against every set of nodes that serves as a proof (`Spec/Size.lean`, `Proof/Size.lean`); double counting of the nodes above the targets |
| C71 | the position map as a hash table, `LeafHasher` | every bucket holds the entries of its residue and all buckets together are a permutation of the association list (`Model/Table.lean`, `Proof/Table.lean`); every function of the model maps states that differ in the order of the map to such states (`Proof/Alike.lean`), hence equal answers in every session (`Spec/Dict.lean`) |
| C72 | `Modify` with virtual functions that count their calls (`Model/Work.lean`) | the counted run follows the plain one call by call (`Follows` in `Proof/Work.lean`); the loops against digit sums and the swaps and rehashes of each row |
| C73 | `Verify` with the number of parent hashes (`Model/Work.lean`) | the counted check follows the plain one through the invariants of C24; exact without cached hashes (`Proof/WorkExact.lean`), none with all of them (`Proof/WorkKnown.lean`) |
| C74 | the decoders with their `reserve` calls, `Verify` with the objects it creates (`Model/Alloc.lean`) | false for undo data; refuted, exact for every input; `Verify` by a potential on the computed positions still to be visited (`Proof/Alloc.lean`) |
| C75 | the file stream with failing opens and writes (`Model/Stream.lean`) | false; refuted, exact for every sequence of calls and every pattern of failures |
| C76 | `Modify` with the number of leaf positions looked up (`Model/Scan.lean`) | false; refuted for every size, exact from the swaps of `Transform`; the swaps of a deletion in closed form (`Proof/ScanCount.lean`) |
| C77 | `~Pollard`, `~Node`, `~InternalNode` with reference counts and a limited stack (`Model/Free.lean`) | pending references plus references from live objects give the counts; ranks; chains from the roots |
| C78 | the test `simple_blockchain` with its sizes and random numbers as parameters (`Model/Tests.lean`) | C16–C29, C42, C46 and C56 along the calls of a block; a second forest without undos follows the first; `C22_same`, `C46_same`: proofs and undo batches depend on the leaves only; `C42_refused` and `C41_bare`: a rejected stale proof leaves nothing remembered |
| C79 | the other tests of src/test/accumulator_tests.cpp with their sizes and leaves as parameters (`Model/Suite.lean`) | C16–C29, C40, C42, C46, C48, C53 and C56 along the calls of each test, `C30_single_partial` for `simple_posmap_updates`; `Props/Conform.lean` runs the model at the literal values of the repository's tests, with their constants (a check of the model, not a proof) |
| C80 | `ArgsManager`, `SetupBenchArgs`, `main` up to `RunAll` (`Model/Args.lean`; a `std::map` as the sorted list of its entries, `std::stoi` as `strtol` on unbounded numbers with a range check) | map lemmas over a strict total order, against `Spec/Options.lean`; `GetIntArg` refuted by witness and decided for every text |
| C81 | `Read`, `CountNodes` on `Pollard`, `Modify`, `Verify` | invariant on addresses, carried through swaps, rehashing and merging row by row (`Tight`): above the bottom row an object that is no root is there iff something below its sibling is; with C41's invariant this is a remembered leaf (`Proof/PolTight.lean`). The bottom row is C30's memo. Specification in `Spec/Kept.lean`; exact for C53 with one remembered leaf (`C53_tidy`) and for two more tests of C79 (`Props/Memorable.lean`) |
| C82 | `Modify` of `RamForest` and `Pollard`, `ForestState::Transform` | the plan of the remove transformation is empty row by row if the targets are the last positions (`Proof/Tail.lean`), so `Remove` is `FinalizeRemove`; exact condition for pollards under C53 |
| C83 | `Prove`, `Verify` | the proof nodes of a growing forest (`Proof/Shelf.lean`): they only become more, and a merged tree adds the sibling of its root; on top of C22 and C40 |
| C84 | `Verify`, `Modify`, `Prove` | what an accepted proof adds to the cache (`Accepted` of `Proof/PolVerify.lean`), iterated over sequences of calls; the answers depend on the reads only (C40, C60), and after a block on the memo of C30 and C81 only |
| C85 | `BenchRunner`, `RunAll`, the whole `main` (`Model/Runner.lean`; a benchmark function and a number are values, a regular expression is a function; `parseAsymptote` is modelled up to the rounding to `double`; the measuring is left out) | sorted maps with the same entries are equal; on top of C80 |
| C86 | `Add`, `Modify` of both accumulators, `Undo` | the fold over a concatenation; C56 and C21 for the forest |
| C87 | `Transform`, `Modify`, `Prove`, `Verify` | the rule of C56, where a row of full pairs passes unchanged to the next; C83 for the proofs |
| C88 | `Transform`, `Modify`, `Prove` | the rule of C56, row by row: a full pair is joined where it is, and a tree without sibling is taken as a whole |
| C89 | `Transform`, `Modify` | closed form on lists (`Spec/OneGone.lean`); the rule of C56 for a row with one gap: an even row hands the gap up and puts the sibling at the end, an odd row fills it with its last tree |
| C90 | `Transform`, `Modify` | below row r every pair is whole or gone, so the rows pass unchanged; the rule of C56 commutes with flattening trees of trees |

## What the proofs found in the code

Each item names the theorem that shows it, if there is one.

1. `BatchProof::Unserialize` does not clear `m_sorted_targets` of a used object (`C13_false`).
   With stale sorted targets and no targets, `Pollard::Verify` returns true unchecked.
2. The length check of `UndoBatch::Unserialize` is computed in 32 bits; 8 bytes can make it read
   out of bounds (`C15_false`), after it has requested 40 GiB for them (`C74_undo_false`). A rejected input can still overwrite the number of additions (`C15_exact`).
3. Both `Serialize` functions truncate positions of `2^32` and above (`C10_roundtrip_truncates`),
   and their `int` offsets overflow from `2^31` bytes on (`C12_unserialize_ub`).
4. `RamForest::Verify` ignores the proof (`C37_false`).
5. A crash during `Commit` can leave a file that restores to neither forest (`C32_false`; `C32_exact` gives all safe crash
   points).
6. `Undo` after reopening a forest that lost rows indexes `m_data` out of range (`C38_false`).
7. `CSHA512::Reset` always installs the SHA-512 initial value (`C36_false`).
8. A remembered leaf of a pollard can become unprovable or get a wrong proof (`C30_false`): `ReHash`
   prunes a leaf whose sibling is not remembered, the position map then goes stale. `C30_exact` and `C30_block` say exactly when.
9. A rejected `Pollard::Verify` can leave a remember flag behind (`C27_flags_witness`).
10. `Pollard::Verify` reads past the end of the proof if a cached hash is all zero and the proof is
    too short (`C26_zero_witness`).
11. `RamForest::Add` asserts on duplicate leaf hashes (`C18_duplicate_witness`).
12. `RootPositions`, `RowOffset` and `Parent` shift out of range for more than `2^62` or `2^63`
    leaves (`C06_above`, `C06_parent_above`, `C02_bound_sharp`, `C03_bound_sharp`,
    `C04_bound_sharp`). `RamForest::SwapSubTrees` shifts an `int` by the row, undefined from row 31.
13. `Pollard::Verify` expects the target hashes in the order of the sorted targets, while `Prove`
    takes and returns them in any order (`C68_order`, `C68_same`). The benchmark
    `VerifyElementsPollard` overlooks this and measures rejected proofs (`C69_witness`, `C69_pollard_verify_partial`).
14. `ComparePositionMap` dereferences `end()` for a missing key (`C49_false`).
15. `Undo` with a batch that does not fit can return false after changing the forest, return true without
    restoring anything, fail an assertion or index out of range (`C50_false`). Undoing a batch twice is
    such a case.
16. Proofs that compare equal can be judged differently by `Verify` (`C48_stale_witness`).
17. With `UTREEXO_VERIFY` a rejected proof followed by a deletion makes `Verify` abort on an honest proof
    (`C51_false`); it follows from item 9.
18. `Modify` on a pollard with sane targets that were not verified since the last block can return true
    with wrong roots (`C53_wrong_roots`) or crash, even for a remembered leaf that the pollard can prove
    (`C53_crash`, `C53_crash_single`), or keep the deleted leaf in the position map, so that `Prove` gives a proof for it
    (`C53_stale`).
19. The fuzz target `forest_state` runs into undefined behaviour for every odd number of leaves between
    `2^62` and `2^63` (`C55_forestState_above`), and the loop over `Path` that is commented out in it would for
    small forests too (`C55_path_witness`).
20. `Restore` always returns true: of a file that is too short it uses uninitialised buffers, and no damage is
    detected (`C57_restore`, `C57_undetected_witness`).
21. `RamForest(n)` and `Pollard(n)` with `n > 0` are public but unusable (`C58_forest`, `C58_destroy`, `C58_pollard`).
22. `Prune` does not clear the position map (`C60_prune`).
23. `Pollard` can be copied, but copies share their nodes. A deletion on one changes the roots the other reports (`C62_false`),
    an addition makes the other reject valid proofs (`C62_add_witness`), and `Prune` fails its assertion while a copy exists
    (`C62_prune`).
24. `SwapSubTrees` shifts an `int` by the row: from `2^32` leaves on some deletions are undefined (`C63_sharp`), for `m * 2^32` leaves
    already the deletion of the first leaf (`C63_single`).
25. `ProofPositions` keeps the number of targets left in an `int`: of `2^31` targets it asks for some of the targets' own hashes
    (`C64_positions_wrong`, `C64_prove_wrong`). `BuildUndoBatch`, `Undo`, `Prove` and `Verify` count with an `int` too
    (`C64_modify_exact`, `C64_undo_exact`, `C64_prove`, `C64_verify_ub`).
26. `UndoBatch()` does not initialise `m_num_additions`, so a new undo batch cannot be read (`C65_defined`), and after a rejected
    `Unserialize` an undo batch makes `Undo` return true with a forest that never existed (`C65_false`).
27. `PrintRoots` shows positions in a numbering that may be out of date: wrong for two leaves (`C66_two_witness`), and after a deletion
    with which rows go away (`C66_shrink_witness`). `C66_adds_partial` and `C66_deletes_partial` say exactly after which batches.
28. `Commit` returns true whatever happens to the file (`C75_answer`). After one failed write nothing is saved any more (`C75_stuck`),
    and a file that can be read but not written opens as an empty forest without an error (`C75_open`, `C75_false`).
29. A light client with one leaf in its position map looks up leaf positions for a deletion as if it held the whole forest: all of them
    almost twice for the first of `2^R` leaves (`C76_first`). `ReadLeafRange` tries every position of a swapped subtree, known or not.
30. `ArgsManager::GetIntArg` ends the program for an option that is no number, and ignores one that is too large (`C80_false`).

## Axioms

`#print axioms` of the theorems in `MANIFEST.json` lists, for every theorem, a subset of `propext`,
`Classical.choice` and `Quot.sound`. The concrete witnesses (`*_witness`, `*_bound_sharp`, `*_false`)
need only `propext` and `Quot.sound`. To list them again, run in `lean/` after `lake build`:

    python3 -c "import json;print('import Verif');[print('#print axioms',t) for c in json.load(open('../MANIFEST.json'))['claims'] for t in c['theorems']]" > /tmp/ax.lean
    lake env lean /tmp/ax.lean
