{"id": "C01", "title": "Row and root counts are the binary structure of the leaf count", "statement": "For every leaf count n, NumRows() is the least h with n <= 2^h, NumRoots() is the number of one bits of n, HasRoot(r) holds exactly when bit r of n is set, and MaxNodes() is 2^(NumRows+1)-1.", "quantifier": "every 64-bit leaf count (MaxNodes: every leaf count up to 2^63)", "why_tests_cant": "2^63 leaf counts; wrong at a power of two would go unseen", "anchors": ["src/state.cpp: NumRows, NumRoots, HasRoot, MaxNodes, _numRows", "src/crypto/common.h: CountBits"]}
{"id": "C02", "title": "Positions and (row, index) coordinates are in bijection", "statement": "DetectRow and RowOffset decode every position of the forest to a unique row and in-row index, and the i-th node of row r sits at RowOffset(r)+i.", "quantifier": "every leaf count up to 2^62, every row, every index of the row", "why_tests_cant": "positions are 64-bit; only a few can be tried", "anchors": ["src/state.cpp: DetectRow, RowOffset"]}
{"id": "C03", "title": "Navigation functions agree with the tree", "statement": "Parent, LeftChild, Child, Sibling, RightSibling, Cousin, Ancestor and LeftDescendant move between nodes exactly as in a perfect binary tree: the parent of (r,i) is (r+1,i/2), its children are (r-1,2i) and (r-1,2i+1), Ancestor(p,k) is Parent iterated k times, LeftDescendant(p,k) is LeftChild iterated k times.", "quantifier": "every leaf count up to 2^63, every node, every number of levels that stays in the forest", "why_tests_cant": "bit tricks with masks can fail only at particular widths", "anchors": ["src/state.cpp: Parent, Ancestor, LeftChild, Child, LeftDescendant, Cousin, RightSibling, Sibling"]}
{"id": "C04", "title": "RootPositions lists exactly the tree tops, tallest first", "statement": "RootPositions() has NumRoots() entries, one per one bit of the leaf count from the most significant down, each being the top of the perfect tree of that height, and the trees partition the leaves left to right.", "quantifier": "every leaf count up to 2^62", "why_tests_cant": "depends on the whole bit pattern of the leaf count", "anchors": ["src/state.cpp: RootPositions, RootPosition, _rootPosition, _hasRoot"]}
{"id": "C05", "title": "Path finds the right tree, distance and turns", "statement": "For every node of the forest Path(pos) terminates and returns the index of the tree containing it, the distance to that tree's root, and bits whose complement spell the turns from the root to the node; RootIndex agrees.", "quantifier": "every leaf count up to 2^63 and every node of the forest", "why_tests_cant": "the loop is data dependent on all bits of the leaf count", "anchors": ["src/state.cpp: Path, RootIndex"]}
{"id": "C06", "title": "ForestState arithmetic never hits undefined shifts inside its documented domain", "statement": "For n <= 2^62 none of the position functions, RootPositions, ProofPositions, Transform or UndoTransform shifts by 64 or more or by a negative amount on sane targets; from 2^62+1 leaves on RowOffset does for the first leaf already, and above 2^63 Parent does for every position.", "quantifier": "every leaf count up to 2^62, every sane target list", "why_tests_cant": "undefined behaviour does not reliably show in tests", "anchors": ["src/state.cpp"]}
{"id": "C07", "title": "CheckTargetsSanity accepts exactly the strictly increasing lists of existing leaves", "statement": "CheckTargetsSanity(targets) is true iff the targets are strictly increasing and all smaller than the leaf count.", "quantifier": "every leaf count and every list of 64-bit targets", "why_tests_cant": "the space of lists is infinite; includes the empty-list size()-1 wrap-around", "anchors": ["src/state.cpp: CheckTargetsSanity, IsSortedNoDupes"]}
{"id": "C08", "title": "ProofPositions returns exactly the nodes a verifier computes and exactly the siblings it is missing", "statement": "For sane targets the computed list contains exactly the targets and all their ancestors up to their roots, the proof list contains exactly the siblings of non-root computed nodes which are not themselves computed; both are in row order and duplicate free.", "quantifier": "every leaf count up to 2^62, every sane target list", "why_tests_cant": "the 4/3/2/1-way case split depends on every clustering of targets", "anchors": ["src/state.cpp: ProofPositions"]}
{"id": "C09", "title": "Transform moves exactly the deleted leaves to the end", "statement": "Executing the swaps of Transform(targets) row by row permutes the leaves so that the last |targets| leaf slots hold exactly the targets and the first n-|targets| hold exactly the survivors.", "quantifier": "every leaf count up to 2^62 and every sane target list", "why_tests_cant": "swaps on different rows interact through collapse conversion; combinatorially many shapes", "anchors": ["src/state.cpp: Transform, MakeSwaps, MakeCollapse, ConvertCollapses, SwapIfDescendant, ComputeNextRowTargets"]}
{"id": "C10", "title": "BatchProof serialization round-trips", "statement": "Unserialize(Serialize(p)) on a fresh object succeeds and yields a proof equal to p with the same sorted targets, for every proof whose counts and targets fit in 32 bits; targets of 2^32 and above are truncated.", "quantifier": "every proof whose encoding is shorter than 2^31 bytes, the range of the offset", "why_tests_cant": "inputs are unbounded lists", "anchors": ["src/batchproof.cpp: BatchProof::Serialize, BatchProof::Unserialize", "src/crypto/common.h: WriteBE32, ReadBE32"]}
{"id": "C11", "title": "BatchProof encoding is canonical", "statement": "Every byte string accepted by Unserialize is reproduced byte for byte by Serialize, so no two distinct byte strings decode to the same proof.", "quantifier": "every byte string", "why_tests_cant": "infinitely many byte strings (the project only fuzzes this)", "anchors": ["src/batchproof.cpp: BatchProof::Serialize, BatchProof::Unserialize", "src/fuzz/batchproof.cpp"]}
{"id": "C12", "title": "BatchProof::Unserialize never reads outside its input and rejects every malformed length", "statement": "Unserialize rejects every byte string whose length does not match the two declared counts and leaves the object alone. It accepts every other one shorter than 2^31 bytes and reads only bytes of the input. On the longer ones whose length matches its int offset overflows, which is undefined behaviour.", "quantifier": "every byte string", "why_tests_cant": "memory safety over all inputs", "anchors": ["src/batchproof.cpp: BatchProof::Unserialize"]}
{"id": "C13", "title": "Decoding into a used BatchProof gives the same result as decoding into a fresh one", "statement": "After a successful Unserialize the observable proof, including GetSortedTargets, depends only on the bytes and not on what the object held before.", "quantifier": "every byte string and every previous content of the object", "why_tests_cant": "needs a history of two decodes with arbitrary contents", "anchors": ["src/batchproof.cpp: BatchProof::Unserialize"]}
{"id": "C14", "title": "UndoBatch serialization round-trips", "statement": "Unserialize(Serialize(u)) succeeds and yields an equal undo batch whenever its counts and positions fit in 32 bits and it holds one hash per position.", "quantifier": "every undo batch whose encoding is shorter than 2^31 bytes, the range of the offset", "why_tests_cant": "inputs are unbounded lists", "anchors": ["src/batchproof.cpp: UndoBatch::Serialize, UndoBatch::Unserialize"]}
{"id": "C15", "title": "UndoBatch::Unserialize never reads outside its input", "statement": "For every byte string Unserialize either returns false or reads only bytes of the input.", "quantifier": "every byte string", "why_tests_cant": "the dangerous inputs declare about 2^27 or more entries and rely on 32-bit wrap-around", "anchors": ["src/batchproof.cpp: UndoBatch::Unserialize"]}
{"id": "C16", "title": "RamForest keeps the Merkle roots of its leaf list", "statement": "In every reachable state the forest represents a list of leaves: NumLeaves() is its length, GetLeaf(i) its i-th entry and Roots() the Merkle roots of the perfect trees of its binary decomposition, tallest first.", "quantifier": "every history of valid (sorted existing targets, new distinct hashes, fewer than 2^32 leaves before a deletion and at most 2^62 in all) and rejected Modify calls and of Undo calls from the empty forest", "why_tests_cant": "histories are unbounded; stale interior hashes show only for particular histories", "anchors": ["src/ram_forest.cpp: Add, Modify, NewLeaf, MergeRoot, SwapSubTrees, FinalizeRemove, Node::ReHash", "src/accumulator.cpp: Add, Remove, Roots"]}
{"id": "C17", "title": "Adding leaves appends them", "statement": "A Modify that only adds leaves succeeds and appends them in order to the leaf list, and splitting an addition into several calls gives the same roots and leaves.", "quantifier": "every reachable state, every list of new distinct leaves (at most 2^62 in all), every way to split it", "why_tests_cant": "depends on carries through all rows", "anchors": ["src/ram_forest.cpp: Add, NewLeaf, MergeRoot", "src/accumulator.cpp: Add"]}
{"id": "C18", "title": "Removing leaves removes exactly the targets", "statement": "A Modify with sane targets succeeds; afterwards the leaf list holds exactly the previous leaves minus the targets (as a permutation) followed by the additions.", "quantifier": "every reachable state and every valid modification (sorted existing targets, new distinct hashes, fewer than 2^32 leaves before a deletion and at most 2^62 in all)", "why_tests_cant": "combinatorially many target sets", "anchors": ["src/accumulator.cpp: Remove, Modify", "src/ram_forest.cpp: Modify, FinalizeRemove, SwapSubTrees"]}
{"id": "C19", "title": "Modify with insane targets is rejected and changes nothing", "statement": "If the targets are unsorted, repeated or out of range, Modify returns false and every observable of the accumulator is unchanged.", "quantifier": "every state and every target list", "why_tests_cant": "all malformed lists", "anchors": ["src/accumulator.cpp: Remove, Modify", "src/ram_forest.cpp: Modify"]}
{"id": "C20", "title": "Undo is the exact inverse of Modify", "statement": "After Modify(undo, adds, targets) succeeds, Undo(undo) succeeds and restores leaf count, leaves, roots and position map.", "quantifier": "every reachable state and every valid modification (sorted existing targets, new distinct hashes, fewer than 2^32 leaves before a deletion and at most 2^62 in all)", "why_tests_cant": "depends on the reverse of all swaps and on stale interior rows", "anchors": ["src/ram_forest.cpp: Undo, BuildUndoBatch", "src/state.cpp: UndoTransform, Swap::ToLeaves"]}
{"id": "C21", "title": "A whole history can be undone last-in first-out", "statement": "Undoing the undo batches of any sequence of modifications in reverse order succeeds at every step and returns through the same states.", "quantifier": "every history of valid (sorted existing targets, new distinct hashes, fewer than 2^32 leaves before a deletion and at most 2^62 in all) and rejected modifications and of undos", "why_tests_cant": "unbounded histories", "anchors": ["src/ram_forest.cpp: Undo, Modify"]}
{"id": "C22", "title": "The forest proves exactly its leaves", "statement": "RamForest::Prove succeeds exactly when the requested hashes are distinct leaves of the forest; the returned targets are their positions in request order and the proof hashes are the Merkle hashes at the proof positions; on failure the output proof is untouched.", "quantifier": "every reachable state and every list of hashes", "why_tests_cant": "position map must be right after every history", "anchors": ["src/accumulator.cpp: Prove, UpdatePositionMapForRange, UpdatePositionMapForSubtreeSwap", "src/ram_forest.cpp: Read"]}
{"id": "C23", "title": "Pollard and forest agree on the roots over every block history", "statement": "If each block's deletions are proved by the forest and verified by the pollard before both apply the block, then all calls succeed and both report the same roots and leaf count after every block.", "quantifier": "every history of valid blocks with arbitrary additions, remember flags and deletions", "why_tests_cant": "unbounded histories and cache shapes", "anchors": ["src/pollard.cpp: Verify, SwapSubTrees, MergeRoot, NewLeaf, FinalizeRemove", "src/ram_forest.cpp", "src/accumulator.cpp"]}
{"id": "C24", "title": "Pollard::Verify is complete", "statement": "A pollard in sync with the forest accepts the forest's proof of any set of its leaves, given together with the hashes in the order of their positions, whatever the pollard has cached.", "quantifier": "every pollard that follows a forest through any history, whatever it has cached, every set of leaves", "why_tests_cant": "cache shapes interact with which proof hashes are consumed", "anchors": ["src/pollard.cpp: Verify, CreateProofTree, VerifyProofTree, InitChildrenOfComputed"]}
{"id": "C25", "title": "Pollard::Verify is sound", "statement": "If Verify accepts, then every claimed target hash is the leaf at the claimed position, or the run exhibits two different inputs of the parent hash with the same output.", "quantifier": "every pollard state, every proof and every list of target hashes", "why_tests_cant": "an attacker chooses the proof; tests try a handful of corruptions", "anchors": ["src/pollard.cpp: Verify, CreateProofTree, VerifyProofTree, Node::ReHashAndVerify"]}
{"id": "C26", "title": "Verify never changes the roots", "statement": "Whatever the proof and the outcome, Verify leaves NumLeaves() and Roots() unchanged.", "quantifier": "every pollard state, every proof and target hashes", "why_tests_cant": "documented for all inputs", "anchors": ["src/pollard.cpp: Verify", "include/accumulator.h: Verify"]}
{"id": "C27", "title": "A rejected proof leaves the pollard's hashes as they were", "statement": "When Verify returns false every cached hash is unchanged, no node is left behind and the position map is unchanged.", "quantifier": "every pollard state and rejected proof", "why_tests_cant": "failure can strike at any row", "anchors": ["src/pollard.cpp: Verify"]}
{"id": "C28", "title": "Pruning keeps the roots", "statement": "Prune() leaves roots and leaf count unchanged and leaves exactly one node per root cached.", "quantifier": "every pollard state", "why_tests_cant": "every cache shape", "anchors": ["src/pollard.cpp: Prune, CountNodes", "include/pollard.h: NumCachedLeaves"]}
{"id": "C29", "title": "A pollard restored from roots is equivalent for verification", "statement": "A pollard constructed from the root hashes and leaf count of a forest accepts every forest proof, given together with the hashes in the order of their positions.", "quantifier": "every reachable forest and every set of its leaves", "why_tests_cant": "every leaf count and target set", "anchors": ["src/pollard.cpp: Pollard(roots, num_leaves)"]}
{"id": "C30", "title": "A remembered leaf stays provable", "statement": "A leaf added with the remember flag, or verified, can be proved by the pollard at any later time until deleted, and the proof equals the forest's.", "quantifier": "every block history after the leaf is remembered", "why_tests_cant": "cache eviction depends on the whole history", "anchors": ["src/pollard.cpp: ReHash, Prune, ReadLeafRange", "src/accumulator.cpp: Accumulator::Prove, UpdatePositionMapForRange"]}
{"id": "C31", "title": "A committed forest is restored unchanged", "statement": "Constructing a RamForest from the bytes written by Commit yields the same leaves, roots, position map and leaf count.", "quantifier": "every reachable forest state with fewer than 2^31 leaves, and any longer previous file content", "why_tests_cant": "stale trailing file bytes and every leaf count", "anchors": ["src/ram_forest.cpp: Commit, Restore, RestoreRoots"]}
{"id": "C32", "title": "Commit is crash safe", "statement": "If the process stops at any byte of Commit, the file restores to either the previous or the new forest.", "quantifier": "every crash point of every Commit", "why_tests_cant": "every crash point", "anchors": ["src/ram_forest.cpp: Commit, Restore"]}
{"id": "C33", "title": "Parent hash is SHA-512/256 of the concatenation", "statement": "ParentHash(l, r) equals the FIPS 180-4 SHA-512/256 digest of the 64 bytes l||r.", "quantifier": "every pair of 32-byte hashes", "why_tests_cant": "2^512 inputs", "anchors": ["src/crypto/sha512.cpp", "src/accumulator.cpp: ParentHash"]}
{"id": "C34", "title": "Hashing is independent of how the input is split", "statement": "Writing a message to CSHA512 in any sequence of chunks gives the same digest as writing it at once, equal to the FIPS 180-4 digest for messages below 2^61 bytes.", "quantifier": "every message and every split into chunks", "why_tests_cant": "every chunk boundary relative to the 128-byte block", "anchors": ["src/crypto/sha512.cpp: CSHA512::Write, Finalize, Finalize256"]}
{"id": "C35", "title": "Integer codecs round-trip and bit counters are exact", "statement": "ReadBE32/64 and ReadLE16/32/64 invert their Write counterparts with the stated byte order; CountBits is the bit length; trailingOnes and trailingZeros count exactly the trailing bits.", "quantifier": "every 16/32/64-bit value", "why_tests_cant": "2^64 values", "anchors": ["src/crypto/common.h", "src/state.cpp: trailingOnes, trailingZeros"]}
{"id": "C36", "title": "Resetting a hasher makes it fresh", "statement": "After Reset a CSHA512 object behaves as a newly constructed object of the same variant: hashing a message gives the same digest.", "quantifier": "every hasher variant, every sequence of writes before the reset, every message after it", "why_tests_cant": "a test uses one variant; the reset state must agree for every variant and history", "anchors": ["src/crypto/sha512.cpp: CSHA512::Reset, CSHA512::CSHA512", "src/crypto/sha512.h"]}
{"id": "C37", "title": "RamForest::Verify checks the proof", "statement": "RamForest::Verify(proof, hashes) returns true exactly when the hashes are leaves of the forest and the proof is a valid proof of them.", "quantifier": "every forest, every proof and every list of hashes", "why_tests_cant": "tests only verify proofs they just generated; a wrong proof is never tried on a RamForest", "anchors": ["src/ram_forest.cpp: RamForest::Verify"]}
{"id": "C38", "title": "Undo works after a restart", "statement": "A forest that is committed to its file and restored behaves like the original one: in particular an undo batch obtained before the restart can be undone after it and restores the same leaves and roots.", "quantifier": "every reachable forest and every outstanding undo batch", "why_tests_cant": "a test restarts at a few sizes; the number of in-memory rows after a restart depends on the whole history", "anchors": ["src/ram_forest.cpp: Restore, Commit, Undo"]}
{"id": "C39", "title": "A pollard proves nothing it was not told to remember", "statement": "Pollard::Prove never faults and fails for every hash that was not added with the remember flag or verified, and for every leaf that has been deleted since; every hash the pollard still knows is a leaf of the forest.", "quantifier": "every history of blocks, verifications (accepted or not), prunings and restarts, every list of hashes", "why_tests_cant": "whether a stale position map entry survives depends on which nodes were cached at each deletion in the history", "anchors": ["src/accumulator.cpp: Prove, Remove, UpdatePositionMapForRange", "src/pollard.cpp: FinalizeRemove, NewLeaf, Verify"]}
{"id": "C40", "title": "Which proofs a pollard accepts, exactly", "statement": "For a non-empty set of targets Pollard::Verify returns true exactly if the given hashes are the leaves at the sorted target positions and the proof hashes are those of the proof nodes in position order, where hashes of nodes the pollard has cached may be left out and nothing else may be left out, added or reordered (unless the pollard then shows a collision of the parent hash). In particular a pruned or freshly restored pollard accepts exactly one list of proof hashes per set of targets, and after an accepted proof the same targets are accepted again without any hashes (if no proof node has the zero hash).", "quantifier": "every pollard that follows a forest, every proof, every list of hashes", "why_tests_cant": "the set of rejected proofs is infinite and which hashes may be missing depends on the cached nodes, that is on the whole history", "anchors": ["src/pollard.cpp: Pollard::Verify, CreateProofTree, VerifyProofTree", "src/batchproof.cpp: BatchProof::CheckSanity"]}
{"id": "C41", "title": "A pollard stays small", "statement": "After every history, CountNodes() of a pollard with fewer than 2^(R+1) leaves is at least its number of roots and at most that number plus 2*R*NumCachedLeaves(): nothing is kept but the paths of remembered leaves. With no remembered leaf exactly the roots are kept.", "quantifier": "every history of blocks, verifications (accepted or not), prunings, restarts and restores", "why_tests_cant": "a leak of nodes shows only for particular interleavings of adding, verifying and deleting; tests check a few small forests and do not count nodes after long histories", "anchors": ["src/pollard.cpp: Pollard::CountNodes, InternalNode::Chop, InternalNode::Prune, FinalizeRemove, CreateProofTree, MergeRoot", "include/pollard.h: NumCachedLeaves"]}
{"id": "C42", "title": "NumCachedLeaves is the number of remembered unspent leaves", "statement": "NumCachedLeaves() is the number of leaves that were added with the remember flag or verified, and neither deleted nor dropped by a Prune since, and of those that a rejected proof has left remembered: the first of its targets that were not remembered and have no neighbour or one that can be read; one of them that can itself be read is only left remembered if the proof came with its hash. After every history of valid blocks it is the number of unspent leaves added with the remember flag, and CountNodes() is bounded accordingly.", "quantifier": "every history of blocks, verifications with every outcome, prunings, restarts and restores; every list of valid blocks", "why_tests_cant": "flags are stored in the sibling object and are moved by swaps and merges; the count is only right if no swap in any history loses, doubles or misplaces one", "anchors": ["src/pollard.cpp: NewLeaf, SwapSubTrees, FinalizeRemove, MergeRoot, VerifyProofTree, Prune", "include/pollard.h: NumCachedLeaves"]}
{"id": "C43", "title": "Leaf count and roots commit to the leaves", "statement": "Two forests (or two pollards) with the same NumLeaves() and the same Roots(), whatever their histories, hold the same leaves at the same positions and cannot be told apart, or their leaves give two different pairs of hashes with the same ParentHash.", "quantifier": "every two histories of forests, every two histories of pollards", "why_tests_cant": "it compares all pairs of reachable states; tests compare a few pairs they construct equal", "anchors": ["src/accumulator.cpp: Accumulator::Roots, ParentHash", "src/ram_forest.cpp: RamForest::Modify, Undo", "src/pollard.cpp: Pollard::Pollard(roots, num_leaves)"]}
{"id": "C44", "title": "Breaking soundness means breaking SHA-512/256", "statement": "With the hash function of the library, a pollard that accepts hashes for positions where the forest has other leaves, a pollard that after valid blocks accepts a hash that is not an unspent leaf, and two different forests with the same leaf count and roots each make a search through the hashes at hand (the siblings cached in the pollard and the nodes of the forests) return two different 64-byte messages with the same SHA-512/256 digest.", "quantifier": "every history of valid blocks, every proof and every list of target hashes", "why_tests_cant": "no test can try all forged proofs; the statement is a reduction", "anchors": ["src/pollard.cpp: Pollard::Verify, VerifyProofTree", "src/accumulator.cpp: Accumulator::ParentHash", "src/crypto/sha512.cpp: CSHA512"]}
{"id": "C45", "title": "Proofs work over the wire", "statement": "Over every history of valid blocks (at most two million deletions each) a bridge node and a light client that exchange proofs as bytes, on hosts of any byte order, end exactly as without serialization. Every set of at most two million unspent leaves (of at most 2^32) gives at most 8+1028 bytes per leaf that the client accepts. Whatever bytes below 2^31 arrive, the answer is defined (if no node the client has cached has the zero hash), roots and leaf count stay, and accepted hashes are unspent leaves unless SHA-512/256 collides. Malformed bytes change nothing. A client without cached nodes accepts one byte string only for given targets in a given order; the order of the targets on the wire does not matter.", "quantifier": "every history of valid blocks, every byte string, every list of hashes, both byte orders on both sides", "why_tests_cant": "it composes Prove, Serialize, Unserialize and Verify over unbounded histories and arbitrary bytes", "anchors": ["src/batchproof.cpp: BatchProof::Serialize, BatchProof::Unserialize, BatchProof::CheckSanity", "src/accumulator.cpp: Accumulator::Prove", "src/pollard.cpp: Pollard::Verify"]}
{"id": "C46", "title": "Undo batches kept as bytes lead back", "statement": "The undo batch of a Modify holds the number of added leaves, the targets and the deleted leaves (in some order). Every outstanding batch of a history (at most 2^25 deletions, fewer than 2^32 additions) survives Serialize and Unserialize into any batch object on any host, and a whole stack of batches kept as bytes leads back through all earlier forests.", "quantifier": "every history of Modify, Undo, rejected calls and restarts", "why_tests_cant": "tests undo one block with the object still in memory; the statement covers every stack of batches and every stale object read into", "anchors": ["src/batchproof.cpp: UndoBatch::Serialize, UndoBatch::Unserialize", "src/ram_forest.cpp: RamForest::Modify, BuildUndoBatch, Undo"]}
{"id": "C47", "title": "A pollard leaks no objects and its counters count what is kept", "statement": "After every history of valid blocks no node objects of a pollard refer to each other in a cycle, not even those that are out of reach, so that reference counting (std::shared_ptr) keeps exactly the objects that can be reached from the pollard. CountNodes() is the number of node objects kept (apart from the shared marker m_remember), NumCachedLeaves() is the number of references to the marker held by kept objects, and at most 1 + roots + 2*rows*NumCachedLeaves() objects are kept.", "quantifier": "every history of blocks played by a RamForest and a pollard side by side, every set of objects consistent with reference counting", "why_tests_cant": "leaks by cycles depend on the order of swaps over an unbounded history, and a test cannot see objects that are out of reach", "anchors": ["src/pollard.cpp: Pollard::InternalNode::m_nieces, SwapSubTrees, MergeRoot, FinalizeRemove, NewLeaf, InitChildrenOfComputed, Prune, CountNodes", "include/pollard.h: Pollard::NumCachedLeaves, CountNodes"]}
{"id": "C48", "title": "The equality operators mean equality", "statement": "Comparing two forests never faults and is true exactly if both hold the same leaves in the same order, that is if no call (NumLeaves, GetLeaf, Roots, positions of hashes) tells them apart. Undoing a modification and opening the file again give a forest equal to the one before. Undo batches compare equal exactly if they have the same content; proofs exactly if targets and hashes agree, and then they are the same object if their sorted copies were made from the targets.", "quantifier": "every pair of forests with arbitrary histories (Modify, Undo, rejected calls, restarts), every pair of batches and proofs", "why_tests_cant": "operator== looks at the count, the roots and the position map, not at the hashes stored; that this suffices depends on an invariant over all histories", "anchors": ["src/ram_forest.cpp: RamForest::operator==", "src/batchproof.cpp: BatchProof::operator==, UndoBatch::operator=="]}
{"id": "C49", "title": "ComparePositionMap compares", "statement": "For any two accumulators ComparePositionMap answers whether every position recorded in the first is recorded in the second.", "quantifier": "every pair of accumulators with arbitrary histories", "why_tests_cant": "tests compare accumulators that know the same leaves; the statement covers leaves known to one side only", "anchors": ["src/accumulator.cpp: Accumulator::ComparePositionMap"]}
{"id": "C50", "title": "Undo is safe for any batch", "statement": "Undo with any batch object either returns false and changes nothing, or returns true and gives a forest from which Modify, with the leaves taken back and the positions of the batch, leads again to the present forest and to the batch.", "quantifier": "every history and every batch, from this forest or from elsewhere", "why_tests_cant": "tests undo batches obtained from the same forest; batches may come from disk or from another node", "anchors": ["src/ram_forest.cpp: RamForest::Undo", "include/batchproof.h: UndoBatch"]}
{"id": "C51", "title": "The self-checks of a verify build never fire", "statement": "In a build with UTREEXO_VERIFY, where CHECK_SAFE aborts when its condition is false, every call of Modify, Undo, Prove and Verify that a build without it completes gives the same result: no check fails.", "quantifier": "every history of forests and pollards, all valid and rejected modifications, all undo batches that fit, all proofs given to Verify", "why_tests_cant": "the checks are themselves run-time tests; whether one can fail depends on caches left by earlier calls in arbitrary histories", "anchors": ["src/check.h: CHECK_SAFE", "src/state.cpp: LeftChild, Child, LeftDescendant", "src/accumulator.cpp: Accumulator::Add", "src/ram_forest.cpp: RamForest::Undo", "src/pollard.cpp: SwapSubTrees, FinalizeRemove, VerifyProofTree"]}
{"id": "C52", "title": "Leaves verified one by one can be deleted together", "statement": "After any number of Verify calls since the last block, accepted or rejected, Modify succeeds for every sane set of targets that are leaves of accepted calls, and the pollard has the roots and leaf count of the forest afterwards. A pollard that remembers every leaf applies every valid block without any Verify, and one that is told to remember everything from the start does so for ever.", "quantifier": "every history, every sequence of Verify calls with arbitrary arguments, every split of the deletions over proofs, every block", "why_tests_cant": "the caches left by earlier calls and by rejected proofs have unboundedly many shapes", "anchors": ["src/pollard.cpp: Pollard::Verify, SwapSubTrees, FinalizeRemove, Remember", "src/accumulator.cpp: Accumulator::Modify, Remove"]}
{"id": "C53", "title": "A pollard does not silently diverge when it deletes leaves it has not verified", "statement": "Modify on a pollard with sane targets that were not verified either gives the roots of the forest or returns false and changes nothing.", "quantifier": "every history and every sane set of targets", "why_tests_cant": "tests delete what they have just verified", "anchors": ["src/pollard.cpp: SwapSubTrees, FinalizeRemove, InternalSiblings", "src/accumulator.cpp: Accumulator::Remove"]}
{"id": "C54", "title": "No input makes the fuzz targets batchproof and pollard fail", "statement": "For every input the fuzz targets batchproof and pollard end without a failed assertion, exception or undefined behaviour; for pollard the only alternative is that the run itself exhibits two siblings whose parent hash is zero or, when the altered proof is accepted, a collision of SHA-512/256 that a search through the pollard returns.", "quantifier": "all byte strings of any length, hosts of both byte orders", "why_tests_cant": "a fuzzer runs finitely many inputs", "anchors": ["src/fuzz/batchproof.cpp: FUZZ(batchproof)", "src/fuzz/pollard.cpp: FUZZ(pollard), SetHash", "src/fuzz/fuzz.h: FUZZ_CONSUME, FUZZ_CONSUME_VEC, FUZZ_CONSUME_BOOL"]}
{"id": "C55", "title": "ForestState answers for arbitrary targets", "statement": "ProofPositions, Transform, UndoTransform and CheckTargetsSanity return without undefined behaviour, failed assertion or exception whatever targets they are given (unsorted, repeated, beyond the forest), and no input makes the fuzz target forest_state fail.", "quantifier": "all numbers of leaves, all lists of 64-bit targets of any length, all inputs of the fuzz target", "why_tests_cant": "the domain is infinite, and failures need more than 2^62 leaves or odd shapes of target lists", "anchors": ["src/state.cpp: ForestState::ProofPositions, Transform, UndoTransform, CheckTargetsSanity, RootPositions, Path", "src/fuzz/forest_state.cpp: FUZZ(forest_state)"]}
{"id": "C56", "title": "The order of the leaves after a block is fixed by a simple rule", "statement": "After Modify the forest holds the remaining leaves in the order given by a rule on lists (row by row, a tree whose sibling is deleted gets the next tree without sibling, else the root of the row; one left over becomes the root), followed by the additions. So the roots of forest and pollard are a computable function of the blocks alone, and forests that hold the same leaves stay equal under the same calls whatever their past.", "quantifier": "every reachable forest and pollard, every valid block, every number of blocks", "why_tests_cant": "tests compare the two implementations with each other, both share Transform; a change of the order would be a silent consensus change", "anchors": ["src/state.cpp: ForestState::Transform", "src/accumulator.cpp: Accumulator::Remove, Add, Modify", "src/ram_forest.cpp: RamForest::SwapSubTrees, Modify", "src/pollard.cpp: Pollard::SwapSubTrees"]}
{"id": "C57", "title": "A forest opened from a file is right exactly if the file starts with the encoding of distinct leaves", "statement": "RamForest(file) on an existing file of at least the declared size succeeds and shows what the file contains. The forest shows given leaves with right roots and right proofs if and only if these are distinct and the file starts with their encoding (leaf count, then the Merkle hashes row by row); then it behaves like any forest built by Modify. A shorter file is undefined behaviour. No damage is detected.", "quantifier": "every byte string as file (declaring at most 2^62 leaves or too short), both byte orders, every list of leaves (fewer than 2^31)", "why_tests_cant": "tests restore only files that Commit has just written; a claim about all damaged, foreign or half-written files is needed to know what opening a file guarantees", "anchors": ["src/ram_forest.cpp: RamForest::RamForest(const std::string&), Restore, RestoreRoots, Commit", "src/accumulator.cpp: Accumulator::Prove"]}
{"id": "C58", "title": "Constructors: which accumulators can be used", "statement": "RamForest(n) and Pollard(n) can be used only for n = 0. For n > 0 every Modify on RamForest(n) that returns has returned false and changed nothing, and destroying the forest fails an assertion. On Pollard(n) no deletion succeeds, and an addition that succeeds leaves it with fewer roots than its leaf count needs. Pollard(roots, n) succeeds exactly if the number of roots fits n; it then has these roots, and otherwise an assertion fails.", "quantifier": "all leaf counts, all lists of leaves and targets, all lists of root hashes", "why_tests_cant": "The tests construct accumulators with 0 leaves or with the roots of a forest. That no sequence of arguments makes the other objects work is a statement about all of them.", "anchors": ["src/ram_forest.cpp: RamForest::RamForest, RamForest::~RamForest, RamForest::Add", "src/pollard.cpp: Pollard::Pollard, Pollard::ReadSiblings", "src/accumulator.cpp: Accumulator::Accumulator, Accumulator::Modify"]}
{"id": "C59", "title": "Reorganisations and restarts leave no trace", "statement": "A node that connects blocks with Modify, disconnects the newest ones with Undo and the batches it kept (as objects or as serialized bytes), and is closed and opened again from its files in between, in any order, ends with the forest of a node that only ever saw the blocks connected in the end: every call of the reorganisation succeeds, operator== holds between the two forests, all roots, leaves, counts and positions are equal, and stay so under every further sequence of such events. A pollard restored from the roots after the reorganisation follows every further history of valid blocks.", "quantifier": "for all finite sequences of connect, disconnect and restart events in which each block fits the leaves at the time, a batch is left for each disconnected block, and the batches used after a restart lead back to forests of at most 2^k leaves (k the number of binary digits of the leaf count at the restart)", "why_tests_cant": "The sequences are unbounded and branch; a residue of an undone block in rows, position map or state would show up only much later, in a block that moves the affected subtree.", "anchors": ["src/ram_forest.cpp: RamForest::Undo", "src/ram_forest.cpp: RamForest::Modify", "src/ram_forest.cpp: RamForest::Commit", "src/ram_forest.cpp: RamForest::Restore", "src/batchproof.cpp: UndoBatch::Serialize", "src/batchproof.cpp: UndoBatch::Unserialize", "src/pollard.cpp: Pollard::Pollard"]}
{"id": "C60", "title": "What Prove on a pollard returns", "statement": "Prove on a pollard never faults. It returns a proof exactly if the pollard has recorded a position for every hash asked for, the positions are different leaves, and every node needed is cached; the proof is then the forest's own proof of the leaves that are at these positions. So a stale position (C30) yields a correct proof of other leaves, never a malformed one, and if any pollard following the forest accepts it for the hashes asked for, the positions were right or a hash collision is cached. Prune keeps the recorded positions; afterwards only proofs that need no hash are returned.", "quantifier": "all pollards that followed a forest through any history, all lists of hashes", "why_tests_cant": "Which positions are stale depends on the whole history of swaps and remembered siblings; tests look at single proofs of known good leaves.", "anchors": ["src/accumulator.cpp: Accumulator::Prove", "src/pollard.cpp: Pollard::Read, Pollard::Verify, Pollard::Prune"]}
{"id": "C61", "title": "Add and the two-argument Modify on a forest", "statement": "The public RamForest::Add appends the leaves like Modify without targets and can be undone with UndoBatch(leaves.size(), {}, {}). Accumulator::Modify(leaves, targets), called through the base class, leads to the same forest as RamForest::Modify with an undo batch, and returns false without any change for unsorted, repeated or unknown targets.", "quantifier": "all forests reachable by any history, all lists of new leaves, all lists of targets", "why_tests_cant": "Equality of the results on all states and arguments; tests use one of the interfaces at a time.", "anchors": ["src/ram_forest.cpp: RamForest::Add, RamForest::Modify", "src/accumulator.cpp: Accumulator::Modify, Accumulator::Add"]}
{"id": "C62", "title": "Copies of a pollard are independent", "statement": "After copying a pollard, calls on one of the two do not change what the other reports, and both go on working.", "quantifier": "all pollards that followed a forest through any history, all later calls on one of the copies", "why_tests_cant": "The compiler provides the copy constructor, no test copies a pollard; whether sharing nodes is harmful depends on all later calls.", "anchors": ["include/pollard.h: Pollard", "src/pollard.cpp: Pollard::MergeRoot, Pollard::FinalizeRemove, Pollard::Prune, Pollard::Verify, Pollard::~Pollard"]}
{"id": "C63", "title": "Deletions in forests of 2^32 leaves and more", "statement": "In a forest of up to 2^62 leaves RamForest::Modify with sane targets and new hashes has undefined behaviour exactly if the deletion swaps nodes of row 31 or above; otherwise it deletes the targets, appends the new leaves and can be undone. Below 2^32 leaves this never happens; in every forest with 2^32 leaves or more deleting the first 2^31 leaves is undefined, and in every forest whose leaf count is a multiple of 2^32 so is deleting a single leaf whose bit 31 is zero.", "quantifier": "all forests reachable by any history, all target lists, all lists of new leaves", "why_tests_cant": "No test can hold 2^32 leaves, and which deletions swap a high row depends on the whole target list.", "anchors": ["src/ram_forest.cpp: RamForest::SwapSubTrees, RamForest::Modify", "src/state.cpp: ForestState::Transform"]}
{"id": "C64", "title": "Vectors an int cannot count", "statement": "ProofPositions, Prove, Pollard::Verify, BuildUndoBatch (RamForest::Modify) and RamForest::Undo keep sizes and counters in an int. With fewer than 2^31 targets, deleted hashes and proof hashes this makes no difference. A permitted Modify of a forest, and the Undo of it, is undefined exactly if it has 2^31 targets or more; Prove of fewer than 2^31 leaves is undefined exactly if the proof has 2^31 hashes or more. ProofPositions of 2^31 targets or more (fewer than 2^32), the first two of them siblings, asks for the hash of a target, and Prove of all leaves of such a forest does not return the empty proof that is right.", "quantifier": "all accumulators, target lists, hash lists, proofs and undo batches; for the exact statements all forests reachable by any history", "why_tests_cant": "No test passes vectors of 2^31 elements.", "anchors": ["src/state.cpp: ForestState::ProofPositions", "src/accumulator.cpp: Accumulator::Prove", "src/pollard.cpp: Pollard::Verify", "src/ram_forest.cpp: RamForest::BuildUndoBatch, RamForest::Undo"]}
{"id": "C65", "title": "An object holds what it was last successfully given", "statement": "After any sequence of assignments, SetNull and Unserialize calls on one BatchProof or UndoBatch object, its getters, Serialize, comparisons, Undo and Verify work with the contents of the last assignment or accepted input, with nothing if there was none. A rejected input changes nothing, and nothing uninitialised is ever read.", "quantifier": "every sequence of calls on an object, every input accepted or rejected", "why_tests_cant": "Tests decode into a new object once and do not go on after a rejected input.", "anchors": ["include/batchproof.h: BatchProof, UndoBatch, SetNull", "src/batchproof.cpp: BatchProof::Unserialize, UndoBatch::Unserialize, UndoBatch::GetNumAdds", "src/pollard.cpp: Pollard::Verify", "src/ram_forest.cpp: RamForest::Undo"]}
{"id": "C66", "title": "PrintRoots shows the roots where they are", "statement": "PrintRoots writes one line for each tree of the forest, the tallest first, with the position and the hash of its root.", "quantifier": "every forest and every pollard reachable by any sequence of modifications, undos, restarts, verifications and prunings, accepted or rejected", "why_tests_cant": "The output is never compared with anything, and the positions are right for most sequences of calls.", "anchors": ["src/accumulator.cpp: Accumulator::PrintRoots, Accumulator::Add, Accumulator::Remove", "src/pollard.cpp: Pollard::FinalizeRemove, Pollard::Verify, Pollard::CreateProofTree", "src/ram_forest.cpp: RamForest::FinalizeRemove, RamForest::RestoreRoots"]}
{"id": "C67", "title": "Printed objects can be told apart", "statement": "BatchProof::Print, UndoBatch::Print and PrintPositionMap write their members in the documented format, integers in decimal and hashes as two lower-case hexadecimal digits per byte. Two proofs, or two undo batches, print the same text exactly if operator== says that they are equal. Two position maps that print the same text have the same entries, and the map of a forest has one line for each leaf with its position. Two accumulators that print the same roots have the same roots. Two lists of swaps that print_swaps prints alike are equal.", "quantifier": "all proofs, undo batches, position maps in any order of traversal, accumulators, and lists of swaps", "why_tests_cant": "Unambiguity is a statement about all pairs of objects.", "anchors": ["src/batchproof.cpp: BatchProof::Print, UndoBatch::Print, HexStr", "src/accumulator.cpp: Accumulator::PrintPositionMap, Accumulator::PrintRoots, HexStr", "src/state.cpp: print_vector, print_swaps"]}
{"id": "C68", "title": "Prove takes hashes in any order, Verify in exactly one", "statement": "RamForest::Prove makes the same proof hashes and sorted targets for the same leaves in any order. Pollard::Verify accepts that proof with the hashes in the order of their positions and, unless it holds a collision of the parent hash, returns false for every other list, in particular for the order given to Prove if that is not ascending. RamForest::Verify accepts every order.", "quantifier": "every forest and following pollard, every list of leaves, every arrangement of the hashes and every other list", "why_tests_cant": "One test checks one arrangement of four leaves; there are factorially many.", "anchors": ["src/accumulator.cpp: Accumulator::Prove", "src/pollard.cpp: Pollard::Verify, Pollard::VerifyProofTree", "src/ram_forest.cpp: RamForest::Verify", "src/test/accumulator_tests.cpp: simple_batchproof_verify_and_delete"]}
{"id": "C69", "title": "The benchmarks measure what they say", "statement": "For every size and whatever rand() returns, each benchmark runs without a failed assertion or undefined behaviour, and the calls it measures succeed: the additions build the forest or pollard of the test leaves, restoring gives all leaves back, proofs of half of the leaves are made and accepted, half of the leaves are removed. random_unique can choose every selection, by exactly one sequence of draws.", "quantifier": "all sizes within int, all numbers of repetitions, all sequences of random numbers, all selections", "why_tests_cant": "The benchmarks ignore the results of the calls, so running them shows nothing.", "anchors": ["src/bench/ram_forest.cpp: AddElements, RestoreFromDiskForest, ProveElementsForest, VerifyElementsForest, RemoveElementsForest", "src/bench/pollard.cpp: AddElementsPollard, VerifyElementsPollard, RestorePollard", "src/bench/util/leaves.h: SetHash, CreateTestLeaves, random_unique"]}
{"id": "C70", "title": "Batch proofs are minimal and small", "statement": "The hashes in the proof that Prove makes for some leaves are exactly enough: with them and the leaves every root above a leaf of the batch can be computed, none of them is a hash that the verifier computes itself, and no other set of nodes with these two properties has fewer. There are at most as many as the heights of the trees of the leaves add up to, at most (number of leaves proved) x log2(number of leaves), at most one for each leaf that is not proved, exactly the height of the tree for a single leaf and none if every leaf is proved. Leaves proved together never need more hashes than proved in two parts. The number of hashes plus twice the number of leaves is the number of nodes to compute (leaves included) plus the number of trees concerned. Serialized, the proof of k leaves out of n (at most 2^32, and the bound below 2^31) takes at most 8 + k (4 + 32 log2 n) bytes.", "quantifier": "for every forest reached by any sequence of modifications and undos, every list of leaves and every other choice of nodes; for the counts, every number of leaves up to 2^62 and every sorted list of targets", "why_tests_cant": "minimality compares with every other set of nodes, and the bounds range over all forests and all subsets of their leaves; the tests look at proofs of a few leaves of forests with fewer than 20 leaves and never at their size", "anchors": ["src/accumulator.cpp: Accumulator::Prove", "src/state.cpp: ForestState::ProofPositions", "src/batchproof.cpp: BatchProof::Serialize"]}
{"id": "C71", "title": "The position map is a dictionary whatever the leaf hashes, and no answer depends on its order", "statement": "The map from leaf hashes to positions answers every lookup with the last position stored for the hash and not erased since, and its size is the number of such hashes, whatever values LeafHasher gives to the leaves and however the hash table grows. LeafHasher is the number in the first eight bytes of the hash on every machine, and two leaves have equal values only if these bytes agree. No answer of Modify, Undo, Prove, Verify, Roots, Prune, NumCachedLeaves or operator== depends on the order in which the table keeps its entries, also if that order changes between the calls. What the hash does not give is a bound on the work: n leaves with the same first eight bytes always share a bucket, so that inserting them takes n(n-1)/2 comparisons and a lookup n.", "quantifier": "for every hash function, growth policy, number of buckets and sequence of insertions and erasures; for every accumulator state with distinct keys, every sequence of calls with any arguments, valid or not, and every two sequences of orders", "why_tests_cant": "the order of an unordered_map is fixed by the library the tests run with, so they see one order; dependence on another order, on colliding hash values or on the byte order of the machine would not show", "anchors": ["src/ram_forest.cpp: LeafHasher::operator()", "include/accumulator.h: m_posmap", "src/accumulator.cpp: Accumulator::Prove, Accumulator::UpdatePositionMapForRange, Accumulator::UpdatePositionMapForSubtreeSwap", "src/crypto/common.h: ReadLE64"]}
{"id": "C72", "title": "The cost of a block", "statement": "Modify of a forest or a pollard with n leaves that deletes k leaves and adds a leaves makes exactly a new leaves; the number of times it merges two trees plus the number of trees afterwards is the number of trees after the deletions plus a; it swaps at most k + R pairs of subtrees and rehashes at most k R nodes, where R is any number with n <= 2^R, and without deletions it swaps nothing. Hence at most k R + a + R + 1 parent hashes, and for additions the total depends only on the number of leaves, not on the blocks. A block that a pollard refuses costs nothing.", "quantifier": "every forest and pollard state with at most 2^62 leaves, every list of new leaves and every list of targets that Modify accepts (or refuses)", "why_tests_cant": "tests do not count calls, and the bounds are over all forests, blocks and batch sizes; a node rehashed twice or a subtree swapped with itself gives the same results", "anchors": ["src/accumulator.cpp: Accumulator::Modify, Accumulator::Add, Accumulator::Remove", "src/ram_forest.cpp: RamForest::Add, RamForest::Node::ReHash, RamForest::SwapSubTrees, RamForest::MergeRoot", "src/pollard.cpp: Pollard::Node::ReHash, Pollard::SwapSubTrees, Pollard::MergeRoot"]}
{"id": "C73", "title": "The cost of a verification", "statement": "Whatever the proof, the target hashes and the outcome, Pollard::Verify computes at most one parent hash for each node that lies above a target: at most as many as the heights of the trees of the targets add up to, at most (number of targets) x log2(number of leaves), fewer than there are leaves, and none if the targets are not in order, not leaves or do not match the hashes in number. A pollard that has only its roots, for example one restored from them, computes exactly one for each such node when it accepts. A pollard that has the children of all these nodes computes none; hence what has been verified (without caching a collision of the parent hash) can be verified again, in whole or in part and with any proof, without a parent hash.", "quantifier": "every pollard reached by any history of blocks, proofs (accepted and rejected) and prunings, every proof and list of hashes, also forged ones", "why_tests_cant": "the bound is against every forged proof a peer could send; tests do not count hashes and verify a few honest proofs", "anchors": ["src/pollard.cpp: Pollard::Verify, Pollard::VerifyProofTree, Pollard::CreateProofTree, Pollard::Node::ReHashNoPrune, Pollard::Node::ReHashAndVerify"]}
{"id": "C74", "title": "The memory an input can claim", "statement": "BatchProof::Unserialize never requests more than four times the memory that the input itself takes: nothing for an input it rejects, exactly the size of the decoded entries for one it accepts into a fresh object. UndoBatch::Unserialize never requests more than twice the memory that the input takes. Whatever the proof and the outcome, Pollard::Verify creates at most two nodes and two helper objects for each inner node above a target, at most 2 x (number of targets) x log2(number of leaves) and fewer than twice the number of leaves of each kind, and none if the targets are not in order, not leaves or do not match the hashes in number; hence a message of B bytes makes it create at most B/2 x log2(number of leaves) objects of each kind.", "quantifier": "every byte string of any length, every pollard with at most 2^62 leaves in any state, every proof and list of hashes, also forged ones", "why_tests_cant": "the bound is against every message a peer could send, in particular against counts that do not match the message; tests decode what the encoder wrote", "anchors": ["src/batchproof.cpp: BatchProof::Unserialize, UndoBatch::Unserialize", "src/pollard.cpp: Pollard::Verify, Pollard::CreateProofTree, Pollard::InitChildrenOfComputed"]}
{"id": "C75", "title": "Commit tells whether the forest has been saved", "statement": "If RamForest::Commit returns true, opening the file afterwards gives a forest with the same leaves, roots and proofs; a failed write is reported by the call in which it happens, and a later successful Commit saves the forest. Opening a file that holds a forest gives that forest or reports an error; it never gives an empty forest and never discards the contents.", "quantifier": "every sequence of Modify, Undo and Commit calls on a forest with or without a file, every pattern of failing opens and writes (full disk, lost device, read-only file), every number of bytes that a failing write still stores", "why_tests_cant": "the operating system decides which opens and writes fail and how much of a write is stored; tests run on a working disk", "anchors": ["src/ram_forest.cpp: RamForest::RamForest(const std::string&), RamForest::~RamForest, RamForest::Commit, RamForest::Restore", "include/ram_forest.h: RamForest"]}
{"id": "C76", "title": "A light client looks up few leaf positions for a block", "statement": "The number of leaf positions that a Pollard looks up when it applies a block depends on the block and the height of the forest, not on the number of leaves: a constant for each deleted leaf and each row. A block without deletions or one that is refused looks up none.", "quantifier": "every pollard with any history and any number of leaves up to 2^62, every set of leaves in its position map, every list of deletions and additions", "why_tests_cant": "tests check results, not work, and use forests that are too small to tell a logarithm from the number of leaves; the number depends on the position of each deleted leaf", "anchors": ["src/accumulator.cpp: Accumulator::UpdatePositionMapForRange, Accumulator::UpdatePositionMapForSubtreeSwap, Accumulator::Remove", "src/pollard.cpp: Pollard::ReadLeafRange, Pollard::FinalizeRemove", "src/ram_forest.cpp: RamForest::ReadLeafRange, RamForest::FinalizeRemove"]}
{"id": "C77", "title": "Destroying a pollard frees every node once and takes little stack", "statement": "The destructor of a Pollard frees every node object that is left (and m_remember) exactly once, in whatever order the roots are destroyed, and leaves nothing behind. The destructors of nodes, which call each other, are never nested deeper than the rows of the highest tree plus one: exactly one call for every row from the root of a tree down to its lowest node that is present. While the pollard lives, use_count() is 2 for a root, 1 for every other node, and NumCachedLeaves() + 1 for m_remember.", "quantifier": "every history of blocks, verifications and prunings played by a pollard beside a RamForest, every number of leaves, every set of objects consistent with reference counting, every order of the roots, every stack size", "why_tests_cant": "tests do not see double frees, leaks or the depth of recursive destructors, which depend on how subtrees were swapped over an unbounded history", "anchors": ["src/pollard.cpp: Pollard::~Pollard, Pollard::InternalNode::~InternalNode, Pollard::Node::~Node", "src/node.h: Accumulator::Node::~Node", "include/pollard.h: Pollard::m_remember, Pollard::NumCachedLeaves", "include/accumulator.h: NodePtr"]}
{"id": "C78", "title": "A chain of random blocks can be connected, checked and rolled back", "statement": "Play any number of blocks, each of which deletes leaves of the forest chosen at random and adds up to a given number of new ones, and in every block let the forest prove the deleted leaves, modify, undo and modify again, let the pollard verify, prove every verified leaf alone to a pollard restored from the roots, modify and verify the old proof again, and in the end undo all blocks on the forest (the test simple_blockchain). Every check of this procedure succeeds: all calls return true, the roots come back after each undo and agree after each block, NumCachedLeaves is the number of verified leaves and then 0, and the proof of the deleted leaves is rejected after the block - unless the run exhibits a message of 64 bytes with digest zero or two messages with the same digest.", "quantifier": "every number of blocks and of additions for which the leaves are fewer than 2^31, every sequence of random numbers", "why_tests_cant": "the test runs 1000 blocks with the one sequence of random numbers of a generator with the default seed; and of the sets of leaves a block can delete it only ever chooses those with exactly one of the last two leaves", "anchors": ["src/test/accumulator_tests.cpp: simple_blockchain, CreateTestLeaves", "src/ram_forest.cpp: Modify, Undo, GetLeaf", "src/pollard.cpp: Verify, Prune", "src/accumulator.cpp: Prove, Modify"]}
{"id": "C79", "title": "What the accumulator tests check holds at every size", "statement": "Each of these tests of the repository passes at every size and for every choice of leaves, not only at its literal values: simple (roots agree before and after a deletion and are the Merkle roots of the leaves, the undo batch survives its encoding, Undo restores the roots), ramforest_disk, batchproof_serialization, singular_leaf_prove, simple_modified_proof, simple_cached_proof (a remembered leaf verifies with any hashes of its proof left out), simple_batch_proof, simple_batchproof_verify_and_delete (hashes in the wrong order are rejected, unsorted targets are refused by both), hash_to_known_invalid_proof (a rejected proof leaves the count of cached leaves as it should be), pollard_restore, simple_pollard_prove, ramforest_undo and simple_posmap_updates (the pollard's recorded positions agree with the forest's before and after the deletion of a remembered leaf; its count of nodes is a literal of the test). The test pollard_remember, which deletes a remembered leaf without a proof, passes for every choice of leaves that leaves an even number if from the height of the smallest tree on every subtree beside the leaf's way up holds another remembered leaf, and is undefined otherwise. Where a test expects a rejection, the exceptions are runs that exhibit a node of value zero or with all bits set or a hash collision; simple_modified_proof is undefined exactly for a leaf that is a root.", "quantifier": "every number of leaves below 2^31, every set of leaves to remember, prove and delete, every order and every subset of proof hashes; for all hash functions, or SHA-512/256 where a rejection is expected", "why_tests_cant": "each test checks one forest of at most 64 leaves with one choice of leaves", "anchors": ["src/test/accumulator_tests.cpp: simple, ramforest_disk, batchproof_serialization, singular_leaf_prove, simple_modified_proof, simple_cached_proof, simple_batch_proof, simple_batchproof_verify_and_delete, hash_to_known_invalid_proof, pollard_restore, simple_pollard_prove, ramforest_undo, simple_posmap_updates", "src/accumulator.cpp: Prove, Modify", "src/pollard.cpp: Verify", "src/ram_forest.cpp: Modify, Undo, Commit", "src/accumulator.cpp: ComparePositionMap", "include/pollard.h: NumCachedLeaves"]}
{"id": "C80", "title": "The benchmark program understands its options", "statement": "After ParseParameters, GetArg returns the text after the first '=' of the last argument with the given name, or the default if there is none, and IsArgSet tells whether there is one; nothing that was parsed before matters. GetIntArg returns the number written there, 0 if it is no valid number (as the header says), and the default if the option is not set. The help message lists every option once, in the order of the names.", "quantifier": "every command line, every name and default, every set of options with different names", "why_tests_cant": "there are infinitely many command lines; the repository has no test of the options", "anchors": ["src/bench/util/args.cpp: ParseParameters, GetArg, GetIntArg, IsArgSet, AddArg, GetHelpMessage, HelpMessageOpt", "src/bench/util/args.h: ArgsManager", "src/bench/bench_utreexo.cpp: SetupBenchArgs, main"]}
{"id": "C81", "title": "A pollard keeps exactly the hashes that its remembered leaves need", "statement": "For a pollard that verifies only what the next block deletes, and remembers leaves by adding them with the remember flag: Read returns the hash of a node above the bottom row exactly if the node is a root or its sibling is above a remembered leaf (so that the node is in the proof of that leaf); of the bottom row it has the leaves whose neighbour is remembered, and no leaf unless it or its neighbour is remembered. CountNodes is the number of positions that Read finds a hash for, after any history. Besides the roots this is at most R + 1 nodes for each remembered leaf in a forest of fewer than 2^(R+1) leaves.", "quantifier": "every history of blocks, of proofs rejected between them, of pruning and restoring; every position; every set of remembered leaves", "why_tests_cant": "superfluous nodes are never wrong and change no root; only their number after a particular history is visible, and the tests check it for two histories", "anchors": ["include/pollard.h: CountNodes, NumCachedLeaves", "src/pollard.cpp: Pollard::Read, Pollard::MergeRoot, Pollard::FinalizeRemove, Pollard::SwapSubTrees, Node::ReHash, InternalNode::Prune, InternalNode::DeadEnd"]}
{"id": "C82", "title": "Deleting the newest leaves restores the older forest", "statement": "If the targets of Modify are exactly the last positions m, ..., n-1 then the forest keeps its first m leaves in their places and order, followed by the additions, so its leaves, positions and roots are those it would have if the deleted leaves had never been added; adding a block of leaves and deleting them again gives the leaves, positions and roots of before. A pollard that has verified the deleted leaves gets the same roots. Neither moves a subtree nor computes a parent hash for the deletion.", "quantifier": "every history of a forest, every number m of leaves that stay, every valid block of additions; every pollard that followed the forest", "why_tests_cant": "which nodes move depends on the binary digits of the leaf count and of m; tests delete a few sets from a few forests", "anchors": ["src/accumulator.cpp: Accumulator::Remove, Accumulator::Modify", "src/state.cpp: ForestState::Transform", "src/ram_forest.cpp: RamForest::Modify, RamForest::FinalizeRemove", "src/pollard.cpp: Pollard::FinalizeRemove"]}
{"id": "C83", "title": "How long a proof stays good", "statement": "What Prove returns depends on the trees of its targets only: two forests in which the targets have the same ancestors with the same leaves below them give the same proof. After leaves were added, Prove returns the same proof as before exactly if every tree with a target is still a tree of the forest, that is, if fewer than 2^(t+1) - n mod 2^(t+1) leaves were added for the height t of each of these trees. As long as this is so every pollard accepts the old proof. From then on the new proof has the same targets and the old hashes in their order and at least one more; a pollard that has none of the proof nodes (after Prune, for example) rejects the old proof unless a collision of the parent hash comes into view, and for distinct non-zero hashes a pollard accepts it exactly if it has all nodes whose hashes are missing.", "quantifier": "all forests, all sets of targets, all numbers of added leaves; every pollard that followed the forest", "why_tests_cant": "tests verify a proof right after it was made; which additions spoil it depends on the binary digits of the leaf count and on the trees of all targets", "anchors": ["src/accumulator.cpp: Accumulator::Prove", "src/pollard.cpp: Pollard::Verify, Pollard::CreateProofTree", "src/state.cpp: ForestState::ProofPositions"]}
{"id": "C84", "title": "What a pollard learns from proofs", "statement": "After an accepted call of Verify a pollard can read exactly the nodes it could read before, the ancestors of the leaves in the proof and the siblings of these leaves and ancestors, and it has recorded the positions of these leaves besides those it had. So it does not matter how leaves are proved: any two sequences of calls of Verify, in any order, with leaves proved together or one by one, repeated, or with rejected proofs in between, lead to pollards that read the same everywhere, have the same number of nodes, answer Prove in the same way and accept the same proofs, if the leaves in the accepted proofs are the same. If no proof was rejected they also remember the same leaves, and for a pollard that verifies only what the next block deletes all this still holds after the block. Of the leaves learned this way the pollard proves every selection with the very proof of the forest; with proofs of all leaves it answers Prove like the forest for every list of hashes. A rejected proof may add a remembered leaf.", "quantifier": "every history of forest and pollard, every two sequences of calls of Verify with the same leaves in the accepted ones, every block that deletes these leaves; short of a collision of the parent hash between the forest and what was supplied", "why_tests_cant": "there are as many orders and groupings of n leaves as ordered partitions, and each leaves different objects in the cache", "anchors": ["src/pollard.cpp: Pollard::Verify, Pollard::CreateProofTree, Pollard::VerifyProofTree, Pollard::Prune", "src/accumulator.cpp: Accumulator::Prove, Accumulator::Modify"]}
{"id": "C85", "title": "Which benchmarks are run", "statement": "The benchmark program calls the benchmarks in the order of their names, whatever the order in which the source files register them, as long as the names are different. It calls exactly those whose name matches the filter: once if no numbers are given, otherwise once for each number in the order given. The numbers of a comma separated list of decimal numbers are all read, in their order, whatever leading zeros, signs and fractions they have. The minimum time asked for is divided among the eleven epochs with less than eleven nanoseconds lost, and no option value overflows the conversion to nanoseconds. An invalid filter ends the program before anything is run. Without options every benchmark of the repository is run once. Of two benchmarks with the same name the one registered first is run.", "quantifier": "all lists of benchmarks and all orders of registration, all command lines, all filters (a function from names to matches)", "why_tests_cant": "the order of static initialisation across source files is left open by the language; a test sees the order of one build", "anchors": ["src/bench/bench.cpp: BenchRunner::RunAll, BenchRunner::benchmarks", "src/bench/bench.h: BENCHMARK", "src/bench/bench_utreexo.cpp: main, parseAsymptote"]}
{"id": "C86", "title": "The additions of a block can come in pieces", "statement": "Calling Modify once with the deletions and all new leaves gives the same as calling it with the deletions and the first new leaves and then once for each further part of them. A pollard ends in the very same state, whatever state it was in and also if a call fails. A forest shows the same leaves, positions and roots, and the undo batches of the pieces, taken last in first out, lead back to the forest before the block. The deletions have to come in the first call: made after the additions they can give other roots.", "quantifier": "all pollards in any state, all forests reached by calls, all target lists, all ways of cutting the new leaves into any number of pieces, empty ones too", "why_tests_cant": "the tests add each block in one call; there are exponentially many ways to cut a block", "anchors": ["src/accumulator.cpp: Accumulator::Modify, Accumulator::Add", "src/ram_forest.cpp: RamForest::Modify, RamForest::Add, RamForest::Undo", "src/pollard.cpp: Pollard::NewLeaf, Pollard::MergeRoot"]}
{"id": "C87", "title": "Deleting new leaves leaves the old trees alone", "statement": "Take a multiple m of a power of two P such that at most P leaves come after the first m, for example the leaves of the tallest trees. A block that deletes only leaves after the first m does not move any of the first m leaves, and the leaves after them are arranged as in a forest of their own. So it is over any number of blocks. Prove returns the same proof for leaves among the first m exactly as long as the trees with these leaves have not been merged into taller ones, in particular while less than P leaves come after them, and every pollard that follows the forest accepts the old proof.", "quantifier": "all forests reached by calls, all m and P, all blocks that delete after the first m, all proofs for leaves among the first m, all pollards that follow the forest", "why_tests_cant": "a test deletes a few chosen leaves; that no choice of deletions on one side of a boundary reaches over it concerns every row of swaps at every size", "anchors": ["src/state.cpp: ForestState::Transform, ForestState::ProofPositions", "src/accumulator.cpp: Accumulator::Remove, Accumulator::Modify, Accumulator::Prove", "src/ram_forest.cpp: RamForest::Modify, RamForest::SwapSubTrees", "include/batchproof.h: BatchProof", "src/pollard.cpp: Pollard::Verify"]}
{"id": "C88", "title": "Subtrees without a deleted leaf move as a whole", "statement": "Modify moves leaves to fill the gaps of the deleted ones, but never tears apart a subtree that has lost nothing: the leaves below a node of height r, none of them deleted, are afterwards the leaves below one node of height r, in the same order, and the node has the same hash. Of the proof of each of these leaves the first r hashes are the same after the block, whatever else the block deletes and adds. The proof of any number of these leaves begins with the hashes of the proof that a forest with nothing but this subtree gives, and goes on with one hash for each row from r to the top of the tree, so only these are to be replaced after a block. Leaves that make up a subtree do so over any number of blocks until one of them is deleted.", "quantifier": "all forests reached by calls, all sane targets, all additions, all nodes without a deleted leaf below, at every height", "why_tests_cant": "a test follows a few leaves; the swaps of all rows together must respect every subtree for every set of targets", "anchors": ["src/state.cpp: ForestState::Transform, ForestState::ProofPositions", "src/accumulator.cpp: Accumulator::Remove, Accumulator::Modify, Accumulator::Prove", "src/ram_forest.cpp: RamForest::SwapSubTrees, RamForest::Modify", "include/batchproof.h: BatchProof"]}
{"id": "C89", "title": "Where the leaves are after one is deleted", "statement": "If Modify deletes one leaf and the smallest tree of the forest has 2^k leaves, the smallest tree takes the place of the subtree of 2^k leaves that contains the deleted one, in the same order. What remains of this subtree goes to the end, its half without the leaf first, then the half of the other half without it, and so on, before the additions: of n leaves, leaf x goes to n - 2^(q+1) + x mod 2^q, where q+1 is the height of the lowest node above both x and the deleted leaf. If the leaf is in the smallest tree itself only the second part happens. All other leaves stay where they are, so fewer than 2^(k+1) leaves move, however large the forest is. A pollard that deletes the leaf has the roots of the leaves in this order.", "quantifier": "all forests reached by calls, all leaves, all additions", "why_tests_cant": "a test compares a few forests with expected positions; the closed form must hold for every number of leaves and every deleted leaf", "anchors": ["src/state.cpp: ForestState::Transform", "src/accumulator.cpp: Accumulator::Remove, Accumulator::Modify", "src/ram_forest.cpp: RamForest::SwapSubTrees, RamForest::Modify"]}
{"id": "C90", "title": "Deleting whole subtrees is deleting leaves of a smaller forest", "statement": "If a call of Modify deletes whole subtrees of 2^r leaves, the other subtrees of this height move like the leaves of a forest that has the subtrees as its leaves, each keeping the order of its leaves. The leaves behind the last subtree of this height stay at the end, before the additions. For one deleted subtree this is the closed form of C89. If a leaf of one of the subtrees is left this is no longer so.", "quantifier": "all forests reached by calls, all heights, all sets of whole subtrees, all additions", "why_tests_cant": "a test has forests of a few sizes; that the algorithm does the same at every height is a statement about all of them", "anchors": ["src/state.cpp: ForestState::Transform", "src/accumulator.cpp: Accumulator::Remove, Accumulator::Modify", "src/ram_forest.cpp: RamForest::SwapSubTrees, RamForest::Modify"]}
