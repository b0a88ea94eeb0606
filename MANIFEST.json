{
 "claims": [
  {
   "property": "C01",
   "status": "proved",
   "theorems": [
    "Utreexo.C01_numRows",
    "Utreexo.C01_numRoots",
    "Utreexo.C01_hasRoot",
    "Utreexo.C01_maxNodes"
   ],
   "note": "All 64-bit leaf counts; MaxNodes up to 2^63 leaves."
  },
  {
   "property": "C02",
   "status": "proved",
   "theorems": [
    "Utreexo.C02_decode",
    "Utreexo.C02_bijective",
    "Utreexo.C02_order",
    "Utreexo.C02_bound_sharp"
   ],
   "note": "Leaf counts up to 2^62; C02_bound_sharp shows undefined behaviour above."
  },
  {
   "property": "C03",
   "status": "proved",
   "theorems": [
    "Utreexo.C03_parent",
    "Utreexo.C03_child",
    "Utreexo.C03_sibling",
    "Utreexo.C03_cousin",
    "Utreexo.C03_ancestor",
    "Utreexo.C03_leftDescendant",
    "Utreexo.C03_bound_sharp"
   ],
   "note": "All positions, rows up to 63."
  },
  {
   "property": "C04",
   "status": "proved",
   "theorems": [
    "Utreexo.C04_rootPositions",
    "Utreexo.C04_partition",
    "Utreexo.C04_leftToRight",
    "Utreexo.C04_rootPositionsOf",
    "Utreexo.C04_bound_sharp"
   ],
   "note": "Leaf counts up to 2^62; C04_bound_sharp shows the bound is needed."
  },
  {
   "property": "C05",
   "status": "proved",
   "theorems": [
    "Utreexo.C05_path",
    "Utreexo.C05_path_reaches_root"
   ],
   "note": ""
  },
  {
   "property": "C06",
   "status": "proved",
   "theorems": [
    "Utreexo.C06_positions",
    "Utreexo.C06_forest",
    "Utreexo.C06_above",
    "Utreexo.C06_parent_above"
   ],
   "note": "Positive part for every 64-bit position and every sane target list; C06_above and C06_parent_above show undefined behaviour for every larger leaf count."
  },
  {
   "property": "C07",
   "status": "proved",
   "theorems": [
    "Utreexo.C07_checkTargetsSanity"
   ],
   "note": ""
  },
  {
   "property": "C08",
   "status": "proved",
   "theorems": [
    "Utreexo.C08_proofPositions"
   ],
   "note": ""
  },
  {
   "property": "C09",
   "status": "proved",
   "theorems": [
    "Utreexo.C09_transform",
    "Utreexo.C09_undoTransform"
   ],
   "note": ""
  },
  {
   "property": "C10",
   "status": "proved",
   "theorems": [
    "Utreexo.C10_serialize_format",
    "Utreexo.C10_roundtrip_truncates",
    "Utreexo.C10_roundtrip",
    "Utreexo.C10_truncation_witness"
   ],
   "note": "Encodings below 2^31 bytes (int offset) and targets below 2^32; C10_roundtrip_truncates says what happens to larger targets."
  },
  {
   "property": "C11",
   "status": "proved",
   "theorems": [
    "Utreexo.C11_canonical",
    "Utreexo.C11_injective"
   ],
   "note": ""
  },
  {
   "property": "C12",
   "status": "proved",
   "theorems": [
    "Utreexo.C12_unserialize_safe",
    "Utreexo.C12_unserialize_ub",
    "Utreexo.C12_exact"
   ],
   "note": "Inputs below 2^31 bytes; C12_unserialize_ub shows signed overflow for longer accepted inputs. C12_exact decides every input."
  },
  {
   "property": "C13",
   "status": "partial",
   "theorems": [
    "Utreexo.C13_false",
    "Utreexo.C13_partial",
    "Utreexo.C13_exact"
   ],
   "note": "The property is false for the code (C13_false). Proved: result, targets and hashes depend only on the bytes; the sorted targets of a used object are the old and the new ones together, so the object equals a new one exactly if it had none (C13_exact)."
  },
  {
   "property": "C14",
   "status": "proved",
   "theorems": [
    "Utreexo.C14_roundtrip"
   ],
   "note": "Encodings below 2^31 bytes, values below 2^32."
  },
  {
   "property": "C15",
   "status": "partial",
   "theorems": [
    "Utreexo.C15_false",
    "Utreexo.C15_partial",
    "Utreexo.C15_exact"
   ],
   "note": "The property is false for the code (C15_false, 8-byte input). Proved for declared counts that do not wrap the 32-bit length computation. C15_exact decides every input: rejected (but the number of additions is overwritten), accepted, or undefined behaviour."
  },
  {
   "property": "C16",
   "status": "proved",
   "theorems": [
    "Utreexo.C16_represents"
   ],
   "note": "Histories with sane arguments (Valid): fresh distinct hashes, fewer than 2^32 leaves when deleting (sharp, C63), at most 2^62 in total; rejected calls and undos interleaved freely."
  },
  {
   "property": "C17",
   "status": "proved",
   "theorems": [
    "Utreexo.C17_add",
    "Utreexo.C17_split"
   ],
   "note": ""
  },
  {
   "property": "C18",
   "status": "proved",
   "theorems": [
    "Utreexo.C18_base",
    "Utreexo.C18_modify",
    "Utreexo.C18_duplicate_witness"
   ],
   "note": "Under Valid. C18_duplicate_witness: without fresh hashes the code aborts on an assertion."
  },
  {
   "property": "C19",
   "status": "proved",
   "theorems": [
    "Utreexo.C19_insane"
   ],
   "note": "For every state, without any reachability assumption; the whole state is equal."
  },
  {
   "property": "C20",
   "status": "proved",
   "theorems": [
    "Utreexo.C20_undo"
   ],
   "note": "Under Valid."
  },
  {
   "property": "C21",
   "status": "proved",
   "theorems": [
    "Utreexo.C21_unwind"
   ],
   "note": "Undos may be interleaved with modifications."
  },
  {
   "property": "C22",
   "status": "proved",
   "theorems": [
    "Utreexo.C22_prove",
    "Utreexo.C22_same"
   ],
   "note": ""
  },
  {
   "property": "C23",
   "status": "proved",
   "theorems": [
    "Utreexo.C23_agree",
    "Utreexo.C23_apply",
    "Utreexo.C23_history"
   ],
   "note": "Histories (Sync) contain blocks, arbitrary Verify calls, Prune, rejected calls and restoring from roots. The hypothesis that a block or an arbitrary Verify left no collision of the parent hash is discharged for honest proofs (C24_complete)."
  },
  {
   "property": "C24",
   "status": "proved",
   "theorems": [
    "Utreexo.C24_complete",
    "Utreexo.C24_positions"
   ],
   "note": "Target hashes are given in the order of the sorted targets, which is what the code needs."
  },
  {
   "property": "C25",
   "status": "proved",
   "theorems": [
    "Utreexo.C25_sound",
    "Utreexo.C25_injective",
    "Utreexo.C25_collision_witness"
   ],
   "note": "For every proof and every list of hashes. The alternative of a hash collision is exhibited in the cache of the resulting pollard; C25_collision_witness shows that it is needed."
  },
  {
   "property": "C26",
   "status": "proved",
   "theorems": [
    "Utreexo.C26_roots",
    "Utreexo.C26_answers",
    "Utreexo.C26_zero_witness"
   ],
   "note": "C26_roots covers every call that returns; C26_answers shows that it returns unless a cached hash is the zero hash, and C26_zero_witness shows undefined behaviour in that case."
  },
  {
   "property": "C27",
   "status": "proved",
   "theorems": [
    "Utreexo.C27_rejected",
    "Utreexo.C27_flags_witness"
   ],
   "note": "Hashes, nodes, position map and later proofs. Remember flags may change (C27_flags_witness)."
  },
  {
   "property": "C28",
   "status": "proved",
   "theorems": [
    "Utreexo.C28_prune",
    "Utreexo.C28_read"
   ],
   "note": ""
  },
  {
   "property": "C29",
   "status": "proved",
   "theorems": [
    "Utreexo.C29_restore",
    "Utreexo.C29_accepts"
   ],
   "note": ""
  },
  {
   "property": "C30",
   "status": "partial",
   "theorems": [
    "Utreexo.C30_false",
    "Utreexo.C30_record",
    "Utreexo.C30_exact",
    "Utreexo.C30_refused",
    "Utreexo.C30_block",
    "Utreexo.C30_history",
    "Utreexo.C30_neighbour_partial",
    "Utreexo.C30_single_partial",
    "Utreexo.C30_steady_partial",
    "Utreexo.C30_partial",
    "Utreexo.C30_all_partial"
   ],
   "note": "The property is false for the code (C30_false): a remembered leaf whose sibling is not remembered can lose its object and its position map entry then goes stale. Proved for leaves whose siblings before and after every removal are remembered too (C30_partial), in particular for a pollard that remembers every leaf (C30_all_partial). Exactly characterised for every history: the remembered, readable and recorded leaves are those of a machine on lists of leaves (C30_record, Spec/Memo), remembered leaves are provable iff the machine has their positions (C30_exact), one block keeps a right record iff the stated condition holds (C30_block), and over histories of blocks all this is computable from the blocks (C30_history). Rejected proofs are part of these histories, with the leaves they make the pollard remember (C30_refused). Without any condition on what is remembered: a block keeps a leaf provable and readable if it deletes nothing or leaves the neighbour of the leaf in place (C30_neighbour_partial, over histories C30_steady_partial), and a block with a single deletion keeps every right position of a readable leaf right (C30_single_partial)."
  },
  {
   "property": "C31",
   "status": "proved",
   "theorems": [
    "Utreexo.C31_file",
    "Utreexo.C31_reopen",
    "Utreexo.C31_create"
   ],
   "note": "Fewer than 2^31 leaves (int counters in Commit and Restore). The file format is specified independently (ForestFile)."
  },
  {
   "property": "C32",
   "status": "partial",
   "theorems": [
    "Utreexo.C32_crash_partial",
    "Utreexo.C32_false",
    "Utreexo.C32_exact"
   ],
   "note": "The property is false for the code (C32_false, two crash points). Proved: recommitting an unchanged forest is safe at every crash point, and so are crashes before the first and after the last byte. C32_exact characterises the crash points after which the file opens to the new and to the old forest."
  },
  {
   "property": "C33",
   "status": "proved",
   "theorems": [
    "Utreexo.C33_parentHash"
   ],
   "note": "The specification (Spec/Sha512.lean) is FIPS 180-4; the constants are derived from primes and the IV generation function, not copied."
  },
  {
   "property": "C34",
   "status": "proved",
   "theorems": [
    "Utreexo.C34_split",
    "Utreexo.C34_sha512",
    "Utreexo.C34_sha512_256"
   ],
   "note": "Any split into chunks, both variants and both host byte orders. From 2^61 bytes on the digest is the one with the bit length reduced modulo 2^64 (C34_split), not that of FIPS 180-4."
  },
  {
   "property": "C35",
   "status": "proved",
   "theorems": [
    "Utreexo.C35_writeBE32",
    "Utreexo.C35_readBE32",
    "Utreexo.C35_writeBE64",
    "Utreexo.C35_readBE64",
    "Utreexo.C35_readLE",
    "Utreexo.C35_writeLE",
    "Utreexo.C35_roundtrip",
    "Utreexo.C35_countBits",
    "Utreexo.C35_trailingOnes",
    "Utreexo.C35_trailingZeros"
   ],
   "note": ""
  },
  {
   "property": "C36",
   "status": "partial",
   "theorems": [
    "Utreexo.C36_reset_partial",
    "Utreexo.C36_exact",
    "Utreexo.C36_buffer",
    "Utreexo.C36_false"
   ],
   "note": "The property is false for the code (C36_false): Reset always installs the SHA-512 initial value. Proved for the SHA-512 variant. C36_exact says what any hasher computes after Reset: SHA-512, truncated by Finalize256."
  },
  {
   "property": "C37",
   "status": "partial",
   "theorems": [
    "Utreexo.C37_verify_partial",
    "Utreexo.C37_false"
   ],
   "note": "The property is false for the code (C37_false): RamForest::Verify ignores the proof. Proved: it answers whether the hashes are leaves."
  },
  {
   "property": "C38",
   "status": "partial",
   "theorems": [
    "Utreexo.C38_undo_partial",
    "Utreexo.C38_taller",
    "Utreexo.C38_false"
   ],
   "note": "The property is false for the code (C38_false): after closing and opening a forest that lost rows, Undo indexes m_data out of range. Proved when the earlier forest is not taller than the reopened one; in all other cases the behaviour of Undo is undefined (C38_taller)."
  },
  {
   "property": "C39",
   "status": "proved",
   "theorems": [
    "Utreexo.C39_known",
    "Utreexo.C39_history"
   ],
   "note": ""
  },
  {
   "property": "C40",
   "status": "proved",
   "theorems": [
    "Utreexo.C40_only",
    "Utreexo.C40_all",
    "Utreexo.C40_exact",
    "Utreexo.C40_no_junk",
    "Utreexo.C40_trim",
    "Utreexo.C40_unique",
    "Utreexo.C40_pruned",
    "Utreexo.C40_cached",
    "Utreexo.C40_again",
    "Utreexo.C40_trim_witness"
   ],
   "note": "C40_trim_witness shows that leaving out a cached hash can fail when two proof nodes have the same hash."
  },
  {
   "property": "C41",
   "status": "proved",
   "theorems": [
    "Utreexo.C41_memory",
    "Utreexo.C41_roots",
    "Utreexo.C41_bare"
   ],
   "note": ""
  },
  {
   "property": "C42",
   "status": "proved",
   "theorems": [
    "Utreexo.C42_held",
    "Utreexo.C42_refused",
    "Utreexo.C42_history"
   ],
   "note": "A rejected Verify can leave flags on its targets (C27_flags_witness); which ones is part of the histories (Held.refused, C30_refused, C42_refused)."
  },
  {
   "property": "C43",
   "status": "proved",
   "theorems": [
    "Utreexo.C43_forest",
    "Utreexo.C43_pollard",
    "Utreexo.C43_collision_witness"
   ],
   "note": "The alternative of a collision is needed (C43_collision_witness)."
  },
  {
   "property": "C44",
   "status": "proved",
   "theorems": [
    "Utreexo.C44_sound",
    "Utreexo.C44_history",
    "Utreexo.C44_roots"
   ],
   "note": "A reduction: the collision is what the executable search findCollision (or findRootCollision) returns; the mere existence of a collision would be trivial."
  },
  {
   "property": "C45",
   "status": "proved",
   "theorems": [
    "Utreexo.C45_complete",
    "Utreexo.C45_sound",
    "Utreexo.C45_answers",
    "Utreexo.C45_malformed",
    "Utreexo.C45_unique",
    "Utreexo.C45_order",
    "Utreexo.C45_history",
    "Utreexo.C45_sha"
   ],
   "note": "C45_answers needs that no cached node has the zero hash (C26_zero_witness)."
  },
  {
   "property": "C46",
   "status": "proved",
   "theorems": [
    "Utreexo.C46_same",
    "Utreexo.C46_batch",
    "Utreexo.C46_roundtrip",
    "Utreexo.C46_unwind"
   ],
   "note": ""
  },
  {
   "property": "C47",
   "status": "proved",
   "theorems": [
    "Utreexo.C47_acyclic",
    "Utreexo.C47_freed",
    "Utreexo.C47_nodes",
    "Utreexo.C47_leaves",
    "Utreexo.C47_memory"
   ],
   "note": ""
  },
  {
   "property": "C48",
   "status": "proved",
   "theorems": [
    "Utreexo.C48_forest",
    "Utreexo.C48_same",
    "Utreexo.C48_undo",
    "Utreexo.C48_batch",
    "Utreexo.C48_proof",
    "Utreexo.C48_stale_witness"
   ],
   "note": "For proofs decoded into used objects equality does not imply equal behaviour (C48_stale_witness, cf. C13)."
  },
  {
   "property": "C49",
   "status": "partial",
   "theorems": [
    "Utreexo.C49_forest_partial",
    "Utreexo.C49_exact",
    "Utreexo.C49_pollard_partial",
    "Utreexo.C49_reverse",
    "Utreexo.C49_false"
   ],
   "note": "False: a missing key dereferences end() (C49_false, C49_reverse). Proved for forests all of whose leaves the other has, and for a pollard against the forest it follows; C49_exact gives all outcomes between forests over every order in which the map may be iterated."
  },
  {
   "property": "C50",
   "status": "partial",
   "theorems": [
    "Utreexo.C50_undo_partial",
    "Utreexo.C50_redo_partial",
    "Utreexo.C50_shared",
    "Utreexo.C50_false",
    "Utreexo.C50_exact"
   ],
   "note": "False: a batch that does not fit can corrupt the forest or fault (C50_false). Proved for all batches that fit (Fits); these undos are also part of the histories of all other theorems about forests. C50_exact: below 2^32 leaves the promise is kept exactly for the batches that fit and for those without additions that are refused at once: they have a hash, and no positions or a first hash that is still a leaf."
  },
  {
   "property": "C51",
   "status": "partial",
   "theorems": [
    "Utreexo.C51_forest_modify",
    "Utreexo.C51_forest_rejected",
    "Utreexo.C51_forest_undo",
    "Utreexo.C51_forest_foreign",
    "Utreexo.C51_pollard_modify",
    "Utreexo.C51_pollard_rejected",
    "Utreexo.C51_pollard_prove",
    "Utreexo.C51_pollard_verify_partial",
    "Utreexo.C51_false",
    "Utreexo.C51_catches",
    "Utreexo.C51_verify_reason_partial",
    "Utreexo.C51_verify_accepted_partial",
    "Utreexo.C51_verify_exact_partial",
    "Utreexo.C51_verify_known_partial",
    "Utreexo.C51_exposed_witness",
    "Utreexo.C51_abort_witness"
   ],
   "note": "False: after a rejected proof and a deletion a verify build aborts on an honest proof (C51_false). Proved for Modify, Undo (below 2^31 leaves) and Prove in all histories, and for Verify when no rejected proof has changed the number of remembered leaves. For Verify in all histories the failures are characterised exactly: a verify build aborts on an accepted proof iff a target is stored in the pollard, has a sibling, is not in the position map, its node holds no remember mark and its left neighbour is not a target too; no proof sets off a check iff the pollard has no such leaf."
  },
  {
   "property": "C52",
   "status": "proved",
   "theorems": [
    "Utreexo.C52_modify",
    "Utreexo.C52_split",
    "Utreexo.C52_all",
    "Utreexo.C52_archive"
   ],
   "note": "The histories (Sync, Track, Held) of all theorems about pollards allow several Verify calls before a block and blocks without proofs for targets that the pollard has all nodes for or for a pollard that remembers every leaf. An accepted Verify must not have left a collision of the parent hash, as in C25; for proofs of the forest this is proved (C52_split)."
  },
  {
   "property": "C53",
   "status": "partial",
   "theorems": [
    "Utreexo.C53_tidy",
    "Utreexo.C53_modify_partial",
    "Utreexo.C53_known_partial",
    "Utreexo.C53_sibling_partial",
    "Utreexo.C53_single_partial",
    "Utreexo.C53_single_exact",
    "Utreexo.C53_wrong_roots",
    "Utreexo.C53_crash",
    "Utreexo.C53_crash_single",
    "Utreexo.C53_stale",
    "Utreexo.C53_tail_exact",
    "Utreexo.C53_tail_trees",
    "Utreexo.C53_tail_first",
    "Utreexo.C53_tail_tidy",
    "Utreexo.C53_tail_crash"
   ],
   "note": "False: the roots can be silently wrong (C53_wrong_roots), and Modify can crash even when the target is remembered and provable (C53_crash). C53_stale: where the roots are right, the deleted leaf can stay in the position map. Proved when the targets were verified since the last block or every leaf is remembered (C53_modify_partial), when Read finds both children of every node above the targets, remembered or not (C53_known_partial), so also for siblings of verified leaves (C53_sibling_partial), and for a single remembered leaf in the smallest tree, or with a remembered leaf in every sibling subtree from the height of the smallest tree on (C53_single_partial). C53_single_exact: for a single remembered leaf Modify follows the forest if Read finds its ancestors in all rows from the height of the smallest tree on, and has undefined behaviour otherwise. C53_tidy: for a pollard that verifies only what it deletes (C81) this is decided by the leaves remembered: every sibling subtree from the height of the smallest tree on must hold one. C53_tail_exact: for the newest leaves, verified or not, Modify follows the forest if Read finds the roots of the older leaves, and has undefined behaviour otherwise (C53_tail_crash); whole trees at the end can always be deleted (C53_tail_trees), and any newest leaves if the oldest of them is remembered (C53_tail_first); C53_tail_tidy gives the condition in terms of the leaves remembered."
  },
  {
   "property": "C54",
   "status": "proved",
   "theorems": [
    "Utreexo.C54_batchproof",
    "Utreexo.C54_pollard"
   ],
   "note": "For all inputs. The alternative for pollard names the messages that a search through the run returns; that a collision merely exists would be trivial."
  },
  {
   "property": "C55",
   "status": "partial",
   "theorems": [
    "Utreexo.C55_roots_exact",
    "Utreexo.C55_proofPositions_exact",
    "Utreexo.C55_transform_exact",
    "Utreexo.C55_forestState_exact",
    "Utreexo.C55_total",
    "Utreexo.C55_forestState_partial",
    "Utreexo.C55_forestState_above",
    "Utreexo.C55_path_witness"
   ],
   "note": "The functions answer for all lists of targets up to 2^62 leaves (C55_total), and the target does not fail then. Above, the claim is false: every odd number of leaves up to 2^63 gives undefined behaviour (C55_forestState_above). For all 64-bit numbers of leaves it is decided exactly when each function answers (C55_roots_exact, C55_proofPositions_exact, C55_transform_exact) and which inputs make the fuzz target run into undefined behaviour (C55_forestState_exact)."
  },
  {
   "property": "C56",
   "status": "proved",
   "theorems": [
    "Utreexo.C56_survivors",
    "Utreexo.C56_nothing",
    "Utreexo.C56_order",
    "Utreexo.C56_calls",
    "Utreexo.C56_deterministic",
    "Utreexo.C56_pollard",
    "Utreexo.C56_history",
    "Utreexo.C56_split_witness"
   ],
   "note": "Spec.deleteLeaves is the rule; it keeps exactly the leaves that are not deleted (C56_survivors). Limits as in C18: fewer than 2^32 leaves for a forest that deletes, 2^62 otherwise."
  },
  {
   "property": "C57",
   "status": "proved",
   "theorems": [
    "Utreexo.C57_restore",
    "Utreexo.C57_open",
    "Utreexo.C57_exact",
    "Utreexo.C57_opens_iff",
    "Utreexo.C57_undetected_witness"
   ],
   "note": "Every file is covered by C57_restore (up to 2^62 declared leaves, beyond that only too short files). C57_opens_iff is the criterion, C57_open gives a forest to which all theorems on histories apply. That nothing is detected is shown by C57_undetected_witness."
  },
  {
   "property": "C58",
   "status": "proved",
   "theorems": [
    "Utreexo.C58_forest",
    "Utreexo.C58_destroy",
    "Utreexo.C58_pollard",
    "Utreexo.C58_fromRoots"
   ],
   "note": "Leaf counts with n + additions below 2^64; the constructor from roots up to 2^62 leaves."
  },
  {
   "property": "C59",
   "status": "proved",
   "theorems": [
    "Utreexo.C59_forest",
    "Utreexo.C59_bytes",
    "Utreexo.C59_nodes",
    "Utreexo.C59_pollard"
   ],
   "note": "Batches used after a restart must satisfy the bound of C38; byte form up to 2^25 deletions and 2^32 additions per block."
  },
  {
   "property": "C60",
   "status": "proved",
   "theorems": [
    "Utreexo.C60_prove",
    "Utreexo.C60_accepted",
    "Utreexo.C60_right",
    "Utreexo.C60_prune"
   ],
   "note": "Every answer of Prove on a pollard; in addition what a successful Verify and Prune say about it."
  },
  {
   "property": "C61",
   "status": "proved",
   "theorems": [
    "Utreexo.C61_add",
    "Utreexo.C61_base"
   ],
   "note": "Size limits as in C17 and C18."
  },
  {
   "property": "C62",
   "status": "partial",
   "theorems": [
    "Utreexo.C62_verify_partial",
    "Utreexo.C62_add_partial",
    "Utreexo.C62_shown",
    "Utreexo.C62_prune",
    "Utreexo.C62_false",
    "Utreexo.C62_add_witness",
    "Utreexo.C62_add_flag",
    "Utreexo.C62_drop_partial"
   ],
   "note": "False for the code: C62_false, C62_add_witness, C62_add_flag, C62_prune. C62_verify_partial shows that Verify on a copy is harmless, C62_add_partial that additions too few to complete a tree are, and that any additions without the remember flag are if the pollard has nothing but its roots (the copy goes on following the forest as if nothing happened), C62_shown what PrintRoots shows of the copy then, C62_drop_partial that deleting whole trees from the end leaves the copy exactly as it was. Missing: conditions under which other deletions and other additions are harmless."
  },
  {
   "property": "C63",
   "status": "proved",
   "theorems": [
    "Utreexo.C63_exact",
    "Utreexo.C63_sharp",
    "Utreexo.C63_single",
    "Utreexo.C63_exists"
   ],
   "note": "C63_exists gives forests of every size up to 2^62, so the statements about large forests are not vacuous. The int loop counter of BuildUndoBatch is the subject of C64."
  },
  {
   "property": "C64",
   "status": "proved",
   "theorems": [
    "Utreexo.C64_positions",
    "Utreexo.C64_prove",
    "Utreexo.C64_prove_small",
    "Utreexo.C64_modify",
    "Utreexo.C64_modify_exact",
    "Utreexo.C64_undo",
    "Utreexo.C64_undo_ub",
    "Utreexo.C64_undo_exact",
    "Utreexo.C64_verify",
    "Utreexo.C64_verify_ub",
    "Utreexo.C64_positions_wrong",
    "Utreexo.C64_prove_wrong"
   ],
   "note": "Examples give forests and pollards of the sizes concerned. What Verify does with 2^31 targets whose positions come out wrong is not described."
  },
  {
   "property": "C65",
   "status": "partial",
   "theorems": [
    "Utreexo.C65_undo",
    "Utreexo.C65_defined",
    "Utreexo.C65_compare",
    "Utreexo.C65_exact",
    "Utreexo.C65_partial",
    "Utreexo.C65_proof",
    "Utreexo.C65_proof_exact",
    "Utreexo.C65_verify",
    "Utreexo.C65_false"
   ],
   "note": "False for the code: C65_false (a rejected Unserialize changes an undo batch so that Undo gives a wrong forest; a new undo batch cannot be read; sorted targets of a used proof accumulate). What holds is C65_partial; C65_undo, C65_defined, C65_compare, C65_exact, C65_proof and C65_proof_exact give the contents after every sequence of calls and say exactly when they are the promised ones. C65_verify: a pollard never accepts a proof object with targets left over."
  },
  {
   "property": "C66",
   "status": "partial",
   "theorems": [
    "Utreexo.C66_forest_partial",
    "Utreexo.C66_pollard_partial",
    "Utreexo.C66_marks_partial",
    "Utreexo.C66_modify_partial",
    "Utreexo.C66_undo_partial",
    "Utreexo.C66_reopen_partial",
    "Utreexo.C66_rejected_partial",
    "Utreexo.C66_restored_partial",
    "Utreexo.C66_apply_partial",
    "Utreexo.C66_verify_partial",
    "Utreexo.C66_verify_right_partial",
    "Utreexo.C66_prune_partial",
    "Utreexo.C66_adds_partial",
    "Utreexo.C66_deletes_partial",
    "Utreexo.C66_two_witness",
    "Utreexo.C66_shrink_witness",
    "Utreexo.C66_witness"
   ],
   "note": "False for the code: C66_witness, C66_two_witness, C66_shrink_witness. C66_forest_partial and C66_pollard_partial: number of lines, order and hashes are right and each position is right in some numbering; the other theorems follow that numbering through every call, and C66_marks_partial, C66_adds_partial, C66_deletes_partial say exactly when all positions are right."
  },
  {
   "property": "C67",
   "status": "proved",
   "theorems": [
    "Utreexo.C67_hex",
    "Utreexo.C67_proof",
    "Utreexo.C67_proof_equal",
    "Utreexo.C67_undo",
    "Utreexo.C67_undo_equal",
    "Utreexo.C67_map",
    "Utreexo.C67_swaps",
    "Utreexo.C67_map_equal",
    "Utreexo.C67_map_forest",
    "Utreexo.C67_roots"
   ],
   "note": "The stream is assumed to be in its default state. An undo batch whose number of additions was never set cannot be printed (C67_undo, see C65)."
  },
  {
   "property": "C68",
   "status": "proved",
   "theorems": [
    "Utreexo.C68_order",
    "Utreexo.C68_other",
    "Utreexo.C68_same",
    "Utreexo.C68_prove",
    "Utreexo.C68_one",
    "Utreexo.C68_forest",
    "Utreexo.C68_order_witness"
   ],
   "note": "Soundness is up to a collision of the parent hash in plain view, as in C25."
  },
  {
   "property": "C69",
   "status": "partial",
   "theorems": [
    "Utreexo.C69_shuffle",
    "Utreexo.C69_add",
    "Utreexo.C69_prove",
    "Utreexo.C69_verify",
    "Utreexo.C69_remove",
    "Utreexo.C69_restore",
    "Utreexo.C69_limit",
    "Utreexo.C69_pollard_add",
    "Utreexo.C69_pollard_restore",
    "Utreexo.C69_pollard_verify_partial",
    "Utreexo.C69_witness"
   ],
   "note": "False for VerifyElementsPollard, which measures rejected verifications: C69_witness. C69_pollard_verify_partial: it returns true every time if the leaves happen to be chosen in ascending order, otherwise false every time. All other benchmarks are proved. Values of -asymptote that are not whole numbers are not modelled."
  },
  {
   "property": "C70",
   "status": "proved",
   "theorems": [
    "Utreexo.C70_minimal",
    "Utreexo.C70_bound",
    "Utreexo.C70_all",
    "Utreexo.C70_single",
    "Utreexo.C70_together",
    "Utreexo.C70_count",
    "Utreexo.C70_bytes",
    "Utreexo.C70_cases"
   ],
   "note": "C70_minimal compares with every set of nodes from which the roots can be computed (Spec/Size.lean) that contains none of the nodes to be computed; C70_bound, C70_all and C70_single bound the number of hashes, C70_together compares with two proofs, C70_count relates it to the nodes to compute, C70_bytes gives the bytes."
  },
  {
   "property": "C71",
   "status": "proved",
   "theorems": [
    "Utreexo.C71_table",
    "Utreexo.C71_entries",
    "Utreexo.C71_hash",
    "Utreexo.C71_flood",
    "Utreexo.C71_forest",
    "Utreexo.C71_pollard"
   ],
   "note": "For std::unordered_map as the standard describes it (buckets by hash modulo their number, arbitrary growth); its memory management is not modelled. The answers of ComparePositionMap can depend on the order only between false and the undefined behaviour, see C49_exact."
  },
  {
   "property": "C72",
   "status": "proved",
   "theorems": [
    "Utreexo.C72_forest_same",
    "Utreexo.C72_pollard_same",
    "Utreexo.C72_forest",
    "Utreexo.C72_pollard",
    "Utreexo.C72_refused",
    "Utreexo.C72_block",
    "Utreexo.C72_hashes",
    "Utreexo.C72_additions"
   ],
   "note": "C72_forest_same and C72_pollard_same: counting changes nothing. C72_forest, C72_pollard and C72_refused hold for every state, C72_block for every valid block of a forest with a history. Only these calls are counted: a swap in row r also updates the positions of up to 2^(r+1) leaves in the position map."
  },
  {
   "property": "C73",
   "status": "proved",
   "theorems": [
    "Utreexo.C73_same",
    "Utreexo.C73_verify",
    "Utreexo.C73_bound",
    "Utreexo.C73_early",
    "Utreexo.C73_exact",
    "Utreexo.C73_restored",
    "Utreexo.C73_known",
    "Utreexo.C73_again"
   ],
   "note": "C73_same: counting changes nothing. C73_restored shows that pollards restored from roots meet the hypothesis of C73_exact. CreateProofTree computes no parent hash."
  },
  {
   "property": "C74",
   "status": "partial",
   "theorems": [
    "Utreexo.C74_decode_same",
    "Utreexo.C74_proof",
    "Utreexo.C74_proof_exact",
    "Utreexo.C74_undo_exact",
    "Utreexo.C74_undo_false",
    "Utreexo.C74_undo_partial",
    "Utreexo.C74_undo_wraps",
    "Utreexo.C74_verify_same",
    "Utreexo.C74_verify",
    "Utreexo.C74_verify_bound",
    "Utreexo.C74_verify_early",
    "Utreexo.C74_message"
   ],
   "note": "False for UndoBatch::Unserialize: C74_undo_false (8 bytes request 40 GiB). C74_undo_exact gives the requests for every input, C74_undo_partial the bound if the length check does not wrap; C74_undo_wraps: the bound fails for every other input that requests anything. The rest is proved: C74_proof, C74_proof_exact, C74_verify, C74_verify_bound, C74_verify_early, C74_message; C74_decode_same and C74_verify_same: counting changes nothing."
  },
  {
   "property": "C75",
   "status": "partial",
   "theorems": [
    "Utreexo.C75_answer",
    "Utreexo.C75_exact",
    "Utreexo.C75_destroy",
    "Utreexo.C75_stuck",
    "Utreexo.C75_partial",
    "Utreexo.C75_open",
    "Utreexo.C75_false"
   ],
   "note": "False: Commit returns true in any case (C75_answer), and C75_false has a forest without a file, a full disk, a write that fails once, a read-only file and a file that is truncated. C75_exact gives the file after any calls whichever writes fail, C75_destroy the destructor, C75_stuck that nothing is saved after an error; C75_partial: if the stream is good after Commit, the forest has been saved. C75_open: the outcomes of opening a file."
  },
  {
   "property": "C76",
   "status": "partial",
   "theorems": [
    "Utreexo.C76_pollard_same",
    "Utreexo.C76_forest_same",
    "Utreexo.C76_refused",
    "Utreexo.C76_bound",
    "Utreexo.C76_partial",
    "Utreexo.C76_forgetful_partial",
    "Utreexo.C76_exact",
    "Utreexo.C76_single",
    "Utreexo.C76_forest",
    "Utreexo.C76_first",
    "Utreexo.C76_false"
   ],
   "note": "False: C76_first (all positions almost twice for the first of 2^R leaves) and C76_false (not even with 2^25 positions for each deletion and row). C76_exact gives the number for every block, C76_single in closed form for one deletion, C76_forest for forests, C76_bound a bound for every block; C76_partial and C76_forgetful_partial: with an empty position map only the deleted positions. C76_pollard_same and C76_forest_same: counting changes nothing."
  },
  {
   "property": "C77",
   "status": "proved",
   "theorems": [
    "Utreexo.C77_order",
    "Utreexo.C77_destroy",
    "Utreexo.C77_exact",
    "Utreexo.C77_sharp",
    "Utreexo.C77_count",
    "Utreexo.C77_remember"
   ],
   "note": "C77_destroy and C77_order: everything is freed once, m_remember last, within R + 1 nested calls. C77_exact: the stack needed for every pollard; C77_sharp: R + 1 calls are needed if all leaves are remembered. C77_count and C77_remember: the reference counts."
  },
  {
   "property": "C78",
   "status": "proved",
   "theorems": [
    "Utreexo.C78_selection",
    "Utreexo.C78_blockchain"
   ],
   "note": "C78_blockchain: the alternatives (a zero node, an accepted stale proof) come with a computed message or pair of messages. C78_selection: exactly which leaves a block of the test can delete. The int variables of the test are natural numbers; making leaf numbers of 2^31 and above is undefined."
  },
  {
   "property": "C79",
   "status": "proved",
   "theorems": [
    "Utreexo.C79_posmap_nodes",
    "Utreexo.C79_memorable",
    "Utreexo.C79_remember",
    "Utreexo.C79_posmap",
    "Utreexo.C79_batch_proof",
    "Utreexo.C79_restore",
    "Utreexo.C79_each",
    "Utreexo.C79_serialization",
    "Utreexo.C79_disk",
    "Utreexo.C79_pollard_prove",
    "Utreexo.C79_simple",
    "Utreexo.C79_undo",
    "Utreexo.C79_delete",
    "Utreexo.C79_cached",
    "Utreexo.C79_modified",
    "Utreexo.C79_known"
   ],
   "note": "One theorem for each test: C79_simple, C79_disk, C79_serialization, C79_each, C79_modified, C79_cached, C79_batch_proof, C79_delete, C79_known, C79_restore, C79_pollard_prove, C79_undo, C79_posmap. C79_delete returns the last check of that test (the roots changed) as it is. C79_cached needs distinct nonzero proof hashes. C79_posmap_nodes says which number of nodes simple_posmap_updates must expect. C79_memorable: add_memorable_and_remove passes exactly for the leaves in a tree not taller than the smallest one or than 1 (so for 8 leaves, the value of the test), and has undefined behaviour for all others. C79_remember: pollard_remember passes or has undefined behaviour, depending on the remembered leaves that are left, for an even number of leaves left after the deletion and distinct nonzero proof hashes."
  },
  {
   "property": "C80",
   "status": "partial",
   "theorems": [
    "Utreexo.C80_value",
    "Utreexo.C80_set",
    "Utreexo.C80_int_exact",
    "Utreexo.C80_int_partial",
    "Utreexo.C80_false",
    "Utreexo.C80_help",
    "Utreexo.C80_twice",
    "Utreexo.C80_main"
   ],
   "note": "GetIntArg does not do what its header says (C80_false): for an invalid number std::stoi throws invalid_argument, which nobody catches, and a number that is too large for an int silently gives the default, because the handler meant for a missing option also catches the out_of_range of stoi. C80_int_exact decides every text, C80_int_partial: 32 bit numbers in decimal are read back. The rest holds: C80_value, C80_set, C80_help, C80_twice, and C80_main for the program up to RunAll. Not modelled: parseAsymptote and RunAll."
  },
  {
   "property": "C81",
   "status": "proved",
   "theorems": [
    "Utreexo.C81_count",
    "Utreexo.C81_kept",
    "Utreexo.C81_reads",
    "Utreexo.C81_memory",
    "Utreexo.C81_history",
    "Utreexo.C81_loose"
   ],
   "note": "C81_kept (in terms of the leaves remembered), C81_reads (with the memo of C30: every position exactly), C81_history (the same as a computable function of the blocks), C81_count (all histories), C81_memory. The condition on the leaves verified is needed: C81_loose."
  },
  {
   "property": "C82",
   "status": "proved",
   "theorems": [
    "Utreexo.C82_rule",
    "Utreexo.C82_forest",
    "Utreexo.C82_back",
    "Utreexo.C82_cost",
    "Utreexo.C82_cost_pollard",
    "Utreexo.C82_pollard"
   ],
   "note": "C82_rule (the order of the leaves), C82_forest, C82_back (additions taken back), C82_cost, C82_cost_pollard (no swap, no rehash), C82_pollard (verified deletions; without verification see C53_tail_exact)."
  },
  {
   "property": "C83",
   "status": "proved",
   "theorems": [
    "Utreexo.C83_same",
    "Utreexo.C83_add",
    "Utreexo.C83_when",
    "Utreexo.C83_count",
    "Utreexo.C83_verify",
    "Utreexo.C83_more",
    "Utreexo.C83_lacking",
    "Utreexo.C83_stale",
    "Utreexo.C83_pruned",
    "Utreexo.C83_exact"
   ],
   "note": "C83_same (any two forests), C83_add, C83_when, C83_count (additions, exact), C83_verify (pollards), C83_more (strictly more hashes afterwards), C83_lacking, C83_stale, C83_pruned (rejection; a node with the zero hash is excluded), C83_exact (pollards, distinct non-zero hashes)."
  },
  {
   "property": "C84",
   "status": "proved",
   "theorems": [
    "Utreexo.C84_learn",
    "Utreexo.C84_calls",
    "Utreexo.C84_order",
    "Utreexo.C84_memory",
    "Utreexo.C84_block",
    "Utreexo.C84_prove",
    "Utreexo.C84_full",
    "Utreexo.C84_rejected"
   ],
   "note": "C84_learn (one call), C84_calls (any number), C84_order (same reads, node count, proofs and accepted proofs), C84_memory and C84_block (without rejected proofs: same remembered leaves, and the same after the block), C84_prove (what was learned is proved like the forest proves it), C84_full (all leaves). C84_rejected shows that a rejected proof may add a remembered leaf."
  },
  {
   "property": "C85",
   "status": "proved",
   "theorems": [
    "Utreexo.C85_order",
    "Utreexo.C85_calls",
    "Utreexo.C85_invalid",
    "Utreexo.C85_default",
    "Utreexo.C85_repository",
    "Utreexo.C85_numbers",
    "Utreexo.C85_asymptote",
    "Utreexo.C85_malformed",
    "Utreexo.C85_same_name"
   ],
   "note": "C85_calls (which calls, in which order, with which time), C85_order (the order of registration), C85_invalid, C85_default and C85_repository (no options). C85_same_name: the names must be different. C85_numbers and C85_asymptote: the list of numbers. C85_malformed: other lists are read without a complaint (a blank in place of the comma eats a digit). Regular expressions and the rounding of a decimal number to a double are parameters."
  },
  {
   "property": "C86",
   "status": "proved",
   "theorems": [
    "Utreexo.C86_pollard",
    "Utreexo.C86_forest",
    "Utreexo.C86_deletions_first"
   ],
   "note": "C86_pollard (any state, equality of results), C86_forest (Same, and Unwinds for the batches). C86_deletions_first: why the deletions must come first; C56_split_witness: why they cannot be split."
  },
  {
   "property": "C87",
   "status": "proved",
   "theorems": [
    "Utreexo.C87_rule",
    "Utreexo.C87_forest",
    "Utreexo.C87_calls",
    "Utreexo.C87_proof",
    "Utreexo.C87_good",
    "Utreexo.C87_verify",
    "Utreexo.C87_far",
    "Utreexo.C87_inside",
    "Utreexo.C87_case"
   ],
   "note": "C87_rule (the rule of C56), C87_forest (one call), C87_calls (any number), C87_proof (which proofs stay good, exactly), C87_good (in numbers), C87_verify (pollards). C87_far, C87_inside and C87_case: why the conditions are needed."
  },
  {
   "property": "C88",
   "status": "proved",
   "theorems": [
    "Utreexo.C88_split",
    "Utreexo.C88_batch",
    "Utreexo.C88_batch_case",
    "Utreexo.C88_rule",
    "Utreexo.C88_forest",
    "Utreexo.C88_proof",
    "Utreexo.C88_calls",
    "Utreexo.C88_case"
   ],
   "note": "C88_rule (the rule of C56), C88_forest (Modify: leaves and hash of the node), C88_calls (any number of calls), C88_proof (the first r hashes of the proof of one leaf), C88_split (the proof of leaves of one subtree in full), C88_batch (any number of leaves and of calls). C88_case: a subtree that moves, and one with a deleted leaf whose proof changes inside."
  },
  {
   "property": "C89",
   "status": "proved",
   "theorems": [
    "Utreexo.C89_rule",
    "Utreexo.C89_forest",
    "Utreexo.C89_places",
    "Utreexo.C89_moved",
    "Utreexo.C89_few",
    "Utreexo.C89_pollard",
    "Utreexo.C89_case",
    "Utreexo.C89_pollard_case"
   ],
   "note": "C89_rule (the rule of C56 for one leaf), C89_forest (one call of Modify), C89_places (leaf by leaf), C89_moved (the new place of each leaf), C89_few (how many move), C89_pollard (the roots of a pollard). The closed form is Spec.withoutOne (Spec/OneGone.lean). C89_case and C89_pollard_case: twelve leaves."
  },
  {
   "property": "C90",
   "status": "proved",
   "theorems": [
    "Utreexo.C90_rule",
    "Utreexo.C90_forest",
    "Utreexo.C90_one",
    "Utreexo.C90_case",
    "Utreexo.C90_whole_needed"
   ],
   "note": "C90_rule (the rule of C56), C90_forest (one call of Modify), C90_one (one subtree, closed form). C90_case: two pairs of eleven leaves; C90_whole_needed: why the subtrees must be whole."
  }
 ]
}