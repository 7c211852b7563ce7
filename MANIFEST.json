{"claims": [
{"property": "C01", "status": "proved", "theorems": ["EthTrie.C01_eq_iff", "EthTrie.C01_exists_unique", "EthTrie.C01_constructors_wf", "EthTrie.C01_operations_wf"], "note": "Constructors and operations are quantified over all keys that fit (packed < 16^count, count <= 128)."},
{"property": "C02", "status": "partial", "theorems": ["EthTrie.C02_get_nibble", "EthTrie.C02_get_nibble_panics", "EthTrie.C02_get_nibble_panics_release_partial", "EthTrie.C02_false_release", "EthTrie.C02_exact_release"], "note": "False in release builds for indices within 128 of 2^64 (C02_false_release); full statement proved with overflow checks, and without them for indices below 2^64-128. C02_exact_release gives the result for every usize index without overflow checks."},
{"property": "C03", "status": "partial", "theorems": ["EthTrie.C03_slicing_partial", "EthTrie.C03_pop_one", "EthTrie.C03_out_of_range_panics", "EthTrie.C03_false_full_capacity", "EthTrie.C03_exact", "EthTrie.C03_exact_release"], "note": "False at the 128-nibble capacity limit (C03_false_full_capacity: a full-range request panics); proved for all smaller requests. C03_exact: result of every request within the key, including the panic; C03_exact_release: requests past the end without overflow checks."},
{"property": "C04", "status": "proved", "theorems": ["EthTrie.C04_concat", "EthTrie.C04_push"], "note": ""},
{"property": "C05", "status": "proved", "theorems": ["EthTrie.C05_reverse", "EthTrie.C05_reverse_involutive"], "note": ""},
{"property": "C06", "status": "partial", "theorems": ["EthTrie.C06_find_differing_idx_partial", "EthTrie.C06_find_differing_idx_equal", "EthTrie.C06_identical_up_to_smallest", "EthTrie.C06_false_full_capacity", "EthTrie.C06_exact"], "note": "find_nibble_idx... panics when both keys have 128 nibbles (C06_false_full_capacity); proved otherwise. C06_exact: the result for all pairs of keys."},
{"property": "C07", "status": "proved", "theorems": ["EthTrie.C07_from_bytes_be", "EthTrie.C07_bytes_round_trip", "EthTrie.C07_from_bytes_le", "EthTrie.C07_h256", "EthTrie.C07_bytes_be"], "note": ""},
{"property": "C08", "status": "proved", "theorems": ["EthTrie.C08_of_uint", "EthTrie.C08_of_zero", "EthTrie.C08_byte_padded", "EthTrie.C08_try_into_u256", "EthTrie.C08_try_into_u256_panics"], "note": ""},
{"property": "C09", "status": "proved", "theorems": ["EthTrie.C09_format", "EthTrie.C09_parse", "EthTrie.C09_round_trip"], "note": ""},
{"property": "C10", "status": "proved", "theorems": ["EthTrie.C10_hex_prefix", "EthTrie.C10_injective"], "note": ""},
{"property": "C11", "status": "partial", "theorems": ["EthTrie.C11_decode_encode_partial", "EthTrie.C11_decode_encode_leaf", "EthTrie.C11_false_leaf", "EthTrie.C11_errors_partial", "EthTrie.C11_false_empty", "EthTrie.C11_exact"], "note": "False for leaf-flag encodings (C11_false_leaf: the decoder appends the nibbles 1,0) and for the empty input, which panics (C11_false_empty). Proved for extension flags; exact result for leaf flags in C11_decode_encode_leaf. C11_exact: the result for every byte string."},
{"property": "C12", "status": "partial", "theorems": ["EthTrie.C12_fixed_length", "EthTrie.C12_prefix_free_release", "EthTrie.C12_prefix_free_partial", "EthTrie.C12_supported_call", "EthTrie.C12_false_checked"], "note": "Fixed-length keys: proved for both trie types, both build profiles, any number of tries and calls. Prefix-free keys: proved without overflow checks; with overflow checks, get of a key that ends or diverges before the end of a run of nibbles shared by several entries may panic (C12_false_checked), so there the theorem has the extra hypothesis PathsOK."},
{"property": "C13", "status": "partial", "theorems": ["EthTrie.C13_false", "EthTrie.C13_exact_checked", "EthTrie.C13_exact_release", "EthTrie.C13_partial", "EthTrie.C13_comparable"], "note": "False (C13_false: a leaf is compared only up to the shorter key). C13_exact_checked / C13_exact_release characterise the result of get for every key in every reached state; C13_partial gives the cases in which the statement holds."},
{"property": "C14", "status": "partial", "theorems": ["EthTrie.C14_exact", "EthTrie.C14_iff", "EthTrie.C14_false", "EthTrie.C14_partial"], "note": "False (C14_false: keys ending strictly inside an extension). C14_partial covers all other insertions (InsertOK); C14_exact states exactly what every insertion on a canonical trie does, panics included, and C14_iff that it is right exactly if InsertOK holds."},
{"property": "C15", "status": "partial", "theorems": ["EthTrie.C15_exact", "EthTrie.C15_iff", "EthTrie.C15_iff_canonical", "EthTrie.C15_false_lost", "EthTrie.C15_false_panic", "EthTrie.C15_false_prefix", "EthTrie.C15_false_absent", "EthTrie.C15_partial"], "note": "False in four ways (C15_false_*). C15_partial covers the deletions described by DeleteOK; C15_exact states exactly what every deletion on a canonical trie does, panics included, C15_iff that it is right exactly if DeleteRight holds, and C15_iff_canonical that it is right and leaves a canonical trie exactly if DeleteOK holds."},
{"property": "C16", "status": "proved", "theorems": ["EthTrie.C16_order", "EthTrie.C16_histories", "EthTrie.C16_prefixes_first", "EthTrie.C16_by_length"], "note": "C16_order: permuted entry lists (distinct, prefix-incomparable keys); C16_histories: any two reached tries with equal contents, across trie types, build profiles and cache modes. C16_prefixes_first / C16_by_length: keys may be prefixes of others and entries may be hashes, for all orders in which no key comes after one that extends it; other orders: C72_false."},
{"property": "C17", "status": "partial", "theorems": ["EthTrie.C17_false_shape", "EthTrie.C17_false_panic", "EthTrie.C17_partial", "EthTrie.C17_incomparable", "EthTrie.C17_iff"], "note": "False for keys that are prefixes or extensions of stored keys (C17_false_shape, C17_false_panic). Proved for all incomparable keys (C17_incomparable) and more generally whenever both calls are supported. C17_iff: insert then delete restores the trie exactly when the key is Undoable, a condition on the stored map alone."},
{"property": "C18", "status": "proved", "theorems": ["EthTrie.C18_items", "EthTrie.C18_items_long"], "note": "For every state reached by non-panicking calls with keys of at most 127 nibbles. The iterators panic exactly if some path has more than 64 nibbles (C18_items_long, C67_items)."},
{"property": "C19", "status": "proved", "theorems": ["EthTrie.C19_items_order"], "note": "Same states as C18."},
{"property": "C20", "status": "proved", "theorems": ["EthTrie.C20_opaque", "EthTrie.C20_onto"], "note": "Same states as C18."},
{"property": "C21", "status": "proved", "theorems": ["EthTrie.C21_root", "EthTrie.C21_exists", "EthTrie.C21_program"], "note": "Against an independent transcription of the yellow paper (Spec/YP.lean), for an arbitrary function in place of Keccak; C21_program states it from the start of a program with fixed-length keys."},
{"property": "C22", "status": "proved", "theorems": ["EthTrie.C22_contents"], "note": "Across trie types, build profiles and cache modes."},
{"property": "C23", "status": "partial", "theorems": ["EthTrie.C23_false", "EthTrie.C23_partial", "EthTrie.C23_call", "EthTrie.C23_first"], "note": "False in general (C23_false: clone, mutate the clone, subset of the original for no keys, hash the clone). Proved for all other programs: no clones, or no subsets for empty key lists. For all programs: the results are the same up to the first call that reads a stale cell (C23_call, C23_first)."},
{"property": "C24", "status": "partial", "theorems": ["EthTrie.C24_false", "EthTrie.C24_partial", "EthTrie.C24_exact", "EthTrie.C24_wrong", "EthTrie.C24_cells", "EthTrie.C24_new", "EthTrie.C24_shares", "EthTrie.C24_clone", "EthTrie.C24_alone", "EthTrie.C24_history", "EthTrie.C24_stale"], "note": "False in general (C24_false). Proved for programs without clones or without empty-key subsets. For all programs: hash() returns the contents of the root's cell, or else the right hash (C24_exact); the cell's contents are exactly described (C24_cells, C24_new, C24_shares, C24_clone, C24_alone), hence hash() is wrong iff a hash of a trie sharing the cell was stored and none of the sharing tries was changed since (C24_history, C24_stale)."},
{"property": "C25", "status": "proved", "theorems": ["EthTrie.C25_correct", "EthTrie.C25_right", "EthTrie.C25_progress", "EthTrie.C25_terminates", "EthTrie.C25_after", "EthTrie.C25_finishes"], "note": "Each thread runs the hashing of a trie of the state as a program of atomic cache reads and writes; C25_correct (each thread returns what hash() called alone returns), C25_progress and C25_terminates hold for any number of threads, any schedule and every program before, stale caches included; C25_after: no program run afterwards can tell; C25_right: when the value is the hash computed without caches. The lock guards are held for one access only (partial_trie.rs:395-409), so atomic accesses model them; threads that mutate tries meanwhile are not modelled (Rust's borrow rules exclude them for the same handle)."},
{"property": "C26", "status": "proved", "theorems": ["EthTrie.C26_bare", "EthTrie.C26_live"], "note": "C26_bare: arbitrary tries, no reachability assumption, including panics; C26_live: tries of running programs of either type with their caches."},
{"property": "C27", "status": "proved", "theorems": ["EthTrie.C27_subset", "EthTrie.C27_any", "EthTrie.C27_view", "EthTrie.C27_subsets"], "note": "For every state reached by non-panicking calls with keys of at most 127 nibbles in which cache cells are never stale (no clones or no empty-key subsets), single subsets and batches; C27_any: in all programs, for non-empty key lists, relative to the hash computed without caches; the subset is moreover a partial view of the original (C27_view)."},
{"property": "C28", "status": "proved", "theorems": ["EthTrie.C28_subset", "EthTrie.C28_subsets"], "note": "Every state reached by non-panicking calls with keys of at most 127 nibbles; includes the panics of get."},
{"property": "C29", "status": "proved", "theorems": ["EthTrie.C29_minimal"], "note": "For reached states (supported calls). In builds without overflow checks nodes at the end of a run of zeros may be visited too; the statement says so."},
{"property": "C30", "status": "partial", "theorems": ["EthTrie.C30_exact", "EthTrie.C30_false_panic", "EthTrie.C30_partial"], "note": "False for absent keys that stop inside an extension when overflow checks are on (C30_false_panic). C30_exact describes the result of every call exactly; C30_partial is the original claim without such keys."},
{"property": "C31", "status": "proved", "theorems": ["EthTrie.C31_set", "EthTrie.C31_idempotent"], "note": "Equality of key sets and idempotence; results compared with the crate's own equality."},
{"property": "C32", "status": "partial", "theorems": ["EthTrie.C32_exact", "EthTrie.C32_exact_empty", "EthTrie.C32_exact_forgets", "EthTrie.C32_false", "EthTrie.C32_outcome", "EthTrie.C32_more", "EthTrie.C32_partial"], "note": "False (C32_false: flags below the root's children are not reset between key lists). Proved exactly what is returned instead: for a list with keys, the subset for its keys and those keys of earlier lists leading to the same child of the root as one of them (C32_exact); for an empty list the subset for no keys, or, after a list with keys if the root has children, the root alone (C32_exact_empty, C32_exact_forgets). Also: outcome equals the one for all keys (C32_outcome), each result contains the separately made subset (C32_more), equality for the first list and for lists whose keys begin with different nibbles under a root that is not an extension (C32_partial)."},
{"property": "C33", "status": "proved", "theorems": ["EthTrie.C33_insert", "EthTrie.C33_history"], "note": "Single insertions and histories of insertions, across trie types and build profiles."},
{"property": "C34", "status": "partial", "theorems": ["EthTrie.C34_exact", "EthTrie.C34_false", "EthTrie.C34_partial"], "note": "False (C34_false: a branch is collapsed onto a hash node standing for a leaf). C34_exact: the deletion always succeeds in the full trie with the same value; the result is a partial view with the same root hash exactly if no branch is collapsed onto a hash node standing for a leaf or an extension (Strands), and otherwise the root hashes differ or there is a collision."},
{"property": "C35", "status": "proved", "theorems": ["EthTrie.C35_rlp", "EthTrie.C35_commits", "EthTrie.C35_contents"], "note": "The collision is explicit: the RLPs (Trie.rlp, a specification) of two nodes at the same position of the two tries. C35_rlp ties Trie.rlp to what the code hashes. Values shorter than 2^64 bytes."},
{"property": "C36", "status": "proved", "theorems": ["EthTrie.C36_refl", "EthTrie.C36_symm", "EthTrie.C36_trans", "EthTrie.C36_congr", "EthTrie.C36_items", "EthTrie.C36_items_hash", "EthTrie.C36_iff_contents"], "note": "Equivalence relation and congruence for all tries; items/hash for live states; iff contents for reached states."},
{"property": "C37", "status": "proved", "theorems": ["EthTrie.C37_canonical", "EthTrie.C37_paths"], "note": "Canonical form is stated directly on the model's tries (Spec/Canon.lean)."},
{"property": "C38", "status": "proved", "theorems": ["EthTrie.C38_frame", "EthTrie.C38_run", "EthTrie.C38_hash"], "note": "Frame theorem for arbitrary states of both trie types; the hash is unaffected in programs whose caches are not stale (see C24)."},
{"property": "C39", "status": "proved", "theorems": ["EthTrie.C39_stats", "EthTrie.C39_total", "EthTrie.C39_items"], "note": "Counts, depth sums and the lowest depth are exact for every trie whose counters fit in 64 bits; the f32 averages are stated through the exact depth sums (the divisions are C54, the printed text is C55)."},
{"property": "C40", "status": "partial", "theorems": ["EthTrie.C40_mask", "EthTrie.C40_exact", "EthTrie.C40_partial", "EthTrie.C40_found", "EthTrie.C40_false_absent", "EthTrie.C40_false_stored", "EthTrie.C40_false_panic"], "note": "The property is false: an absent key can be reported as found, a key stored below an extension as not found, and a key that ends at a branch panics (C40_false_*). C40_exact describes the output for every key in both build profiles; C40_partial is the claim for lookup paths without extensions; C40_mask specifies the child masks."},
{"property": "C41", "status": "partial", "theorems": ["EthTrie.C41_exact", "EthTrie.C41_after", "EthTrie.C41_equal", "EthTrie.C41_sound", "EthTrie.C41_partial", "EthTrie.C41_false_missed", "EthTrie.C41_false_panic"], "note": "The property is false: differences below extensions with different nibbles are missed and roots of different types panic (C41_false_*). C41_exact gives the outcome for all pairs of tries; C41_equal and C41_sound are the directions that hold; C41_partial is the claim for roots of the same type (and nibbles, for extensions). All of them hold in programs with stale caches too, relative to what hash() returns."},
{"property": "C42", "status": "partial", "theorems": ["EthTrie.C42_prim", "EthTrie.C42_bytes", "EthTrie.C42_expect", "EthTrie.C42_u256_partial", "EthTrie.C42_false_u512", "EthTrie.C42_false_u128_checked", "EthTrie.C42_false_u128_release"], "note": "False for U512 (always panics) and U128 (panics with debug assertions, otherwise 16 zero bytes are appended): the macro always uses a 32-byte buffer. Proved for u8..u64 and U256. to_big_endian of the uint crate is modelled from its known implementation; it is not part of the repository."},
{"property": "C43", "status": "partial", "theorems": ["EthTrie.C43_false", "EthTrie.C43_partial"], "note": "False (C43_false). C43_partial says exactly when get returns Some([]) after insert(k, [])."},
{"property": "C44", "status": "partial", "theorems": ["EthTrie.C44_false", "EthTrie.C44_partial"], "note": "False (C44_false). C44_partial gives the condition under which it holds; C13_exact_release is the exact behaviour."},
{"property": "C45", "status": "proved", "theorems": ["EthTrie.C45_append", "EthTrie.C45_single", "EthTrie.C45_from_iter", "EthTrie.C45_last_wins"], "note": "Composition and from_iter laws hold for all tries, panics included; last-wins is stated on contents."},
{"property": "C46", "status": "proved", "theorems": ["EthTrie.C46_total_order", "EthTrie.C46_length_then_lex"], "note": ""},
{"property": "C47", "status": "proved", "theorems": ["EthTrie.C47_view", "EthTrie.C47_value", "EthTrie.C47_absent"], "note": "C47_absent: in builds without overflow checks the key must not be shorter than a path of the partial trie (get reads zeros for missing nibbles there)."},
{"property": "C48", "status": "proved", "theorems": ["EthTrie.C48_linearizable", "EthTrie.C48_after", "EthTrie.C48_panics", "EthTrie.C48_progress", "EthTrie.C48_terminates", "EthTrie.C48_waitfree", "EthTrie.C48_order", "EthTrie.C48_false"], "note": "The threads may start in any state of a program (Live), and C48_after: once all threads are outside of calls the state is again one (constructor Live.threads), so every theorem about Live states also holds after concurrent parts of programs. For calls with keys of at most 127 nibbles. C48_linearizable needs the stated condition (no clones or no subsets for empty key lists); C48_false shows that it fails otherwise. Memory is sequentially consistent per cell, each lock acquisition is one step; a call of extend that has panicked keeps its handle."},
{"property": "C49", "status": "proved", "theorems": ["EthTrie.C49_path_text", "EthTrie.C49_path_injective", "EthTrie.C49_diff_injective", "EthTrie.C49_diff", "EthTrie.C49_none", "EthTrie.C49_type", "EthTrie.C49_debug", "EthTrie.C49_debug_injective"], "note": "For segments whose keys have at most 128 nibbles with value below 16^count (larger counts overflow U512 shifts and panic, see C05/C46). C49_diff is for reports of the diff tool on tries of programs."},
{"property": "C50", "status": "proved", "theorems": ["EthTrie.C50_text", "EthTrie.C50_injective", "EthTrie.C50_builder", "EthTrie.C50_default"], "note": "For tries of programs and keys of at most 127 nibbles. C50_injective is for the default parameters or any others that print node types and key pieces; without key pieces different paths are printed alike (example)."},
{"property": "C51", "status": "proved", "theorems": ["EthTrie.C51_view", "EthTrie.C51_equal", "EthTrie.C51_subset"], "note": "For tries whose node count and depth sum fit in 64 bits (as for C39). The averages are stated through exact depth sums; the divisions are C54."},
{"property": "C52", "status": "partial", "theorems": ["EthTrie.C52_contents", "EthTrie.C52_hash", "EthTrie.C52_handle", "EthTrie.C52_fresh", "EthTrie.C52_step", "EthTrie.C52_partial", "EthTrie.C52_clone", "EthTrie.C52_false"], "note": "Fails for clones of inner nodes of HashedPartialTrie, which share the cache cell (C52_false; exactly what happens: C52_clone). Proved for everything else: entries, hashes, equality, and all programs that wrap nodes with new (C52_partial)."},
{"property": "C53", "status": "partial", "theorems": ["EthTrie.C53_assign", "EthTrie.C53_partial", "EthTrie.C53_insert", "EthTrie.C53_false"], "note": "Fails if the cell of the overwritten root is filled (C53_false). C53_assign gives the exact outcome in all cases; right for StandardTrie and for programs that make no subset for no keys (C53_partial), and again after an insertion (C53_insert)."},
{"property": "C54", "status": "partial", "theorems": ["EthTrie.C54_average", "EthTrie.C54_small_partial", "EthTrie.C54_percent", "EthTrie.C54_finite", "EthTrie.C54_comparison", "EthTrie.C54_view", "EthTrie.C54_false"], "note": "Fails: NaN without hash nodes or leaves; an average can exceed the lowest depth by rounding (C54_false). Averages up to a relative error of 2^-22 (C54_average), correctly rounded and within the depths for sums and counts up to 2^24 (C54_small_partial); percentages are fully covered (C54_percent, C54_finite, C54_view)."},
{"property": "C55", "status": "proved", "theorems": ["EthTrie.C55_show", "EthTrie.C55_stats", "EthTrie.C55_comparison"], "note": "The text determines name, counts and lowest depth (C55_stats) and the pairs of a comparison (C55_comparison); C55_show relates the printed averages to the depths of the nodes."},
{"property": "C56", "status": "proved", "theorems": ["EthTrie.C56_roundtrip", "EthTrie.C56_standard", "EthTrie.C56_means", "EthTrie.C56_any"], "note": "C56_roundtrip covers both trie types and reading in another program than the one that serialised; what may be in the cache of the root is kept. C56_means and C56_any hold for every trie, well-formed or not."},
{"property": "C57", "status": "partial", "theorems": ["EthTrie.C57_total", "EthTrie.C57_others", "EthTrie.C57_partial", "EthTrie.C57_nohash", "EthTrie.C57_exact", "EthTrie.C57_optional", "EthTrie.C57_forged", "EthTrie.C57_false", "EthTrie.C57_alias", "EthTrie.C57_panics", "EthTrie.C57_shape", "EthTrie.C57_missing", "EthTrie.C57_missing_value", "EthTrie.C57_missing_both"], "note": "False: cached hashes and keys in the data are not checked (C57_forged, C57_false, C57_alias, C57_panics, C57_shape). Reading is total and harmless for other tries (C57_total, C57_others); C57_partial covers data that are read as a well-formed trie with right caches. C57_exact says exactly which data are accepted and as which trie with which caches. C57_missing, C57_missing_value and C57_missing_both say that a node whose data lack one of its fields is rejected."},
{"property": "C58", "status": "partial", "theorems": ["EthTrie.C58_contents", "EthTrie.C58_child", "EthTrie.C58_total", "EthTrie.C58_build", "EthTrie.C58_edit", "EthTrie.C58_fresh", "EthTrie.C58_partial", "EthTrie.C58_false", "EthTrie.C58_inPlace", "EthTrie.C58_shape"], "note": "False with HashedPartialTrie if a clone of a trie is used as a child or a child is changed in place (C58_false, C58_inPlace), and for nodes that are not well-formed (C58_shape). Contents hold for every node (C58_contents), making nodes never panics (C58_total); C58_build, C58_edit, C58_fresh and C58_partial cover well-formed nodes made of new wrappers and proper sub-tries."},
{"property": "C59", "status": "partial", "theorems": ["EthTrie.C59_intact", "EthTrie.C59_extend", "EthTrie.C59_iterator", "EthTrie.C59_reads", "EthTrie.C59_subsets", "EthTrie.C59_hash", "EthTrie.C59_call", "EthTrie.C59_first", "EthTrie.C59_partial", "EthTrie.C59_false"], "note": "False for extend with a filled root cell (C59_false). C59_intact, C59_reads, C59_subsets, C59_extend and C59_iterator say exactly what every call leaves behind when it panics; C59_hash: in the modes in which hashes are right they stay right; C59_partial, C59_first, C59_call: whole programs that catch panics."},
{"property": "C60", "status": "proved", "theorems": ["EthTrie.C60_again", "EthTrie.C60_clone", "EthTrie.C60_once", "EthTrie.C60_cached", "EthTrie.C60_computed"], "note": "The bound is 1 + 496*(1 + sum over the changes of (key length + 3, or 2*key length + 3 for delete)). Condition: the cell of the root was empty at the first hash(), so that it computed something; C60_computed: this holds in all programs that make no subset for an empty list of keys. hash() never fills the cell of the root itself, so it encodes the root each time."},
{"property": "C61", "status": "proved", "theorems": ["EthTrie.C61_made", "EthTrie.C61_counted", "EthTrie.C61_memory"], "note": "For both trie types (C61_made). C61_counted: the count is the number of new cells. C61_memory counts the nodes below the roots; each trie also has its root."},
{"property": "C62", "status": "proved", "theorems": ["EthTrie.C62_subset", "EthTrie.C62_subsets", "EthTrie.C62_new"], "note": "C62_subset, C62_subsets: where a subset for no keys is made, the cell of the root must not be stale (FreshAt; C24 says when it can be)."},
{"property": "C63", "status": "proved", "theorems": ["EthTrie.C63_size", "EthTrie.C63_empty", "EthTrie.C63_depth", "EthTrie.C63_depth_canonical"], "note": "C63_size, C63_empty need a canonical trie (an example shows a trie that is not canonical and has more nodes); C63_depth holds in all states."},
{"property": "C64", "status": "proved", "theorems": ["EthTrie.C64_iff", "EthTrie.C64_root", "EthTrie.C64_only", "EthTrie.C64_build", "EthTrie.C64_build_only", "EthTrie.C64_small", "EthTrie.C64_inside"], "note": "C64_iff: a trie is another one with sub-tries replaced by hash nodes exactly if its contents are those of the other with the entries below some keys, where nodes with encodings of at least 32 bytes begin (KMap.Joint, said in terms of the entries only), replaced by the root hash of these entries. C64_root: then the root hashes are equal. C64_only: equal root hashes imply this, or a collision of the encodings of two nodes. C64_build and C64_build_only: the same for a program that builds both tries from lists of entries; C64_small and C64_inside are two partial tries that, for every hash function, have another root hash unless the encodings of parts of the two contents collide. The comment in examples/hash_nodes.rs that sub-tries of at most 32 bytes may not be replaced is too cautious by one: 32 bytes are enough (example beside C64_build)."},
{"property": "C65", "status": "proved", "theorems": ["EthTrie.C65_replay", "EthTrie.C65_root", "EthTrie.C65_only", "EthTrie.C65_covers", "EthTrie.C65_program", "EthTrie.C65_strand"], "note": "C65_replay: equal answers for all sequences of calls, equal root hashes if nodes of the full trie begin (KMap.Joint) wherever sub-tries were replaced; said in terms of the contents only. C65_root: always so without deletions. C65_only: equal root hashes imply the condition, or a collision; C65_strand is a deletion that does not meet it (see also C34_false). C65_covers: a subset is such a partial trie and serves the keys it was made for. C65_program: subset, calls on subset and original and root hashes in one program."},
{"property": "C66", "status": "proved", "theorems": ["EthTrie.C66_same", "EthTrie.C66_least", "EthTrie.C66_fixed", "EthTrie.C66_nest"], "note": "C66_same: subsets of a partial and of the full trie are equal (Clear: the keys lead to no hash that is not in the full trie; said in terms of the contents). C66_least: so the subset is a partial view of every partial trie serving the keys. C66_fixed: for keys of one length it is enough that they meet no hash, and both calls succeed. C66_nest: subsets of subsets, in the same program."},
{"property": "C67", "status": "proved", "theorems": ["EthTrie.C67_delete", "EthTrie.C67_delete_iff", "EthTrie.C67_short", "EthTrie.C67_insert", "EthTrie.C67_items", "EthTrie.C67_items_canonical", "EthTrie.C67_delete_panics", "EthTrie.C67_items_panics", "EthTrie.C67_33_bytes", "EthTrie.C67_128"], "note": "C67_delete is the exact outcome of delete on canonical tries for keys of up to 127 nibbles, stated in terms of the entries only (KMap.deleteLong); C67_delete_iff says when it works. C67_items: exactly when the iterators work. C67_delete_panics, C67_items_panics and C67_128 are programs that panic, for every hash function, type and profile. C67_33_bytes: every 33-byte key can be inserted and found, but not iterated over."},
{"property": "C68", "status": "proved", "theorems": ["EthTrie.C68_next", "EthTrie.C68_prefix", "EthTrie.C68_canonical", "EthTrie.C68_items"], "note": "Iter.nth is the result of the n-th call of next. C68_next: with paths of at most 64 nibbles every entry is returned exactly once, in order, and then None for ever. C68_prefix and C68_canonical: what happens before and at the panic if there are longer keys. C68_items: agreement with the collected items of C20."},
{"property": "C69", "status": "partial", "theorems": ["EthTrie.C69_bytes", "EthTrie.C69_flags", "EthTrie.C69_tooLong_partial", "EthTrie.C69_false_tooLong", "EthTrie.C69_false_limit", "EthTrie.C69_subset", "EthTrie.C69_key_partial", "EthTrie.C69_subsets", "EthTrie.C69_keys_partial", "EthTrie.C69_false_key"], "note": "C69_bytes and C69_flags are the exact messages. False as stated for strings that are too long: length and bytes are interchanged in every such message (C69_false_tooLong; C69_tooLong_partial is the exact message), and the limit is 33 bytes, not 64 (C69_false_limit). False for subsets: the message shows only what is left of the key below the hash node (C69_false_key; C69_key_partial is the exact message, and says when nothing is left out). The text of the tracked node at the end of the message is that of the hash node with its cached hash; C69_subset: the model that builds the texts returns what the model without them returns. C69_subsets and C69_keys_partial: the same for create_trie_subsets, whose message shows the hash that is cached after the earlier subsets have been made."},
{"property": "C70", "status": "partial", "theorems": ["EthTrie.C70_total", "EthTrie.C70_injective", "EthTrie.C70_any", "EthTrie.C70_standard", "EthTrie.C70_partial", "EthTrie.C70_false", "EthTrie.C70_kinds"], "note": "C70_injective: the texts are the same exactly if the tries are equal and the same hashes are cached; C70_standard: for StandardTries exactly if they are equal; C70_any: the same for arbitrary tries with well-formed keys. False as stated for HashedPartialTries, whose text shows whether a hash is cached (C70_false); C70_partial is the direction that holds for both types. C70_kinds: the two types never have the same text."},
{"property": "C71", "status": "partial", "theorems": ["EthTrie.C71_partial", "EthTrie.C71_value_partial", "EthTrie.C71_standard_partial", "EthTrie.C71_honest", "EthTrie.C71_false", "EthTrie.C71_forged"], "note": "False: Nibbles are read without a check, and a leaf with bits above its nibbles has the hash of another leaf, whatever the hash function is; so data with the right root hash can show values for absent keys and hide values that are there (C71_false, both trie types, no caches). With HashedPartialTrie the cached hash in the data is believed (C71_forged). Proved for data whose Nibbles have zeros above their nibbles and whose caches are right or absent, without any condition on the shape of the trie (C71_partial, C71_value_partial); for StandardTrie only the Nibbles have to be checked (C71_standard_partial). C71_honest: sending a subset."},
{"property": "C72", "status": "partial", "theorems": ["EthTrie.C72_false", "EthTrie.C72_iff", "EthTrie.C72_partial", "EthTrie.C72_prefix_free", "EthTrie.C72_reverse"], "note": "False: items() puts a key after its extensions, so a key above others is inserted last, and if it ends inside the run of nibbles that leads to them it is stored at the end of the run, or the insertion panics if the run leads to a hash node (C72_false). C72_iff says exactly for which canonical tries the collected trie is equal: no stored key ends inside a run of the others; C72_partial adds the hash, C72_prefix_free is the case in which no key is a prefix of another. C72_reverse: collecting the items in reverse order works for every canonical trie."},
{"property": "C73", "status": "partial", "theorems": ["EthTrie.C73_partial", "EthTrie.C73_needed", "EthTrie.C73_false"], "note": "False: when a deletion leaves one branch of a fork, the root hash depends on what is in this branch; if it is a leaf or an extension that was replaced by its hash, the root hashes are those of different strings (C73_false). C73_partial: all answers and the root hashes are equal if (KMap.Witness, said in terms of the entries only) such a branch forks at once, leads to one of the keys the subset was made for, or is smaller than 32 bytes. C73_needed: in tries without hashes equal root hashes imply this condition, or the encodings of parts of the two contents collide."},
{"property": "C74", "status": "partial", "theorems": ["EthTrie.C74_partial", "EthTrie.C74_canonical_partial", "EthTrie.C74_ends", "EthTrie.C74_first", "EthTrie.C74_false"], "note": "Iter.nextC gives the iterator that next leaves behind even if it panics (nextC_eq: otherwise it is the function next of C68). False: an extension that crosses 64 nibbles is put on the stack before the panic although its nibbles were not added to the key; they are then taken off the key, and later entries are returned with wrong keys (C74_false). C74_partial: it holds if no extension to a branch leads from at most 64 nibbles to more; C74_canonical_partial: on canonical tries, if no two keys have more than 64 nibbles in common. C74_ends: for all tries the calls come to an end. C74_first: up to the first panic it is the iterator of C68."},
{"property": "C75", "status": "proved", "theorems": ["EthTrie.C75_total", "EthTrie.C75_looked", "EthTrie.C75_keys", "EthTrie.C75_standard"], "note": "Cost/HashModel.lean counts the calls of Keccak along the states that hashing and subsets pass. C75_total: at most one for each node made, each change and each hash(). C75_looked: the nodes that all hash() calls look at together. C75_keys: without subsets, in terms of the lengths of the keys. C75_standard: for StandardTrie there is no such bound (52 * m calls for m times hash(), against m + 209)."},
{"property": "C76", "status": "proved", "theorems": ["EthTrie.C76_both", "EthTrie.C76_least"], "note": "C76_both: the subset for all keys exists, both subsets are partial views of it, and it has the values that are in one of them. C76_least: it is a partial view of every partial view of the trie that both are partial views of."},
{"property": "C77", "status": "proved", "theorems": ["EthTrie.C77_contents"], "note": "C77_contents: KMap.Hidden says of a map, a list of keys and a key that the node there is replaced (no key leads there, and the encoding of the entries below it, by the Yellow Paper construction of Spec/YP.lean, has 32 bytes or more); KMap.Hides that it is the first such node. Without overflow checks a key that ends inside an extension of zeros is read on with zeros, hence the condition on lengths in those builds."},
{"property": "C78", "status": "proved", "theorems": ["EthTrie.C78_run", "EthTrie.C78_step", "EthTrie.C78_ok", "EthTrie.C78_caught", "EthTrie.C78_same", "EthTrie.C78_keys", "EthTrie.C78_tools", "EthTrie.C78_differ"], "note": "C78_run (from the start), C78_step (from any state), C78_ok, C78_caught (caught panics), C78_same (no lookups and subsets: the same in any case), C78_keys (functions on keys), C78_tools (iterators, queries, statistics, differences, texts). C78_differ: a program that overflows in one build and returns a value in the other. Conversions of integers to values (their buffer is checked by a debug assertion, not by an overflow check) are not part of it; see C42."},
{"property": "C79", "status": "proved", "theorems": ["EthTrie.C79_leave_out", "EthTrie.C79_leave_out_all", "EthTrie.C79_caught", "EthTrie.C79_add", "EthTrie.C79_keccak"], "note": "C79_leave_out (one call, anywhere), C79_leave_out_all (all of them), C79_add (hash and == never panic, so they can be added), C79_caught (caught panics, any state, keys of any length), C79_keccak (two hash functions)."},
{"property": "C80", "status": "partial", "theorems": ["EthTrie.C80_partial", "EthTrie.C80_prefix_free", "EthTrie.C80_fixed_length", "EthTrie.C80_false"], "note": "False: with 0x1, 0x12 and 0x13 stored, deleting 0x12 and then inserting 0x14 loses the entry 0x1, in the other order it is kept (C80_false). C80_partial: true whenever the calls of both sequences are supported (InsertOK, DeleteOK, GetOK), whatever the keys. C80_prefix_free: this is so for all changes if no key stored or used is a prefix of another. C80_fixed_length: keys of one length, with lookups."},
{"property": "C81", "status": "partial", "theorems": ["EthTrie.C81_partial", "EthTrie.C81_fixed_length", "EthTrie.C81_false"], "note": "False: with 0x1, 0x12 and 0x13 stored, deleting 0x12 and putting it back loses the entry 0x1 (C81_false). C81_partial: true whenever the calls there and back are supported (InsertOK, DeleteOK, GetOK), whatever the keys. C81_fixed_length: this is so for keys of one length that meet no hash, in full and partial tries. The calls back are computed from what the calls returned."},
{"property": "C82", "status": "proved", "theorems": ["EthTrie.C82_only", "EthTrie.C82_never", "EthTrie.C82_program", "EthTrie.C82_hashInsert", "EthTrie.C82_hashOnExisting", "EthTrie.C82_expectFailed", "EthTrie.C82_hashDelete", "EthTrie.C82_assertFailed", "EthTrie.C82_overflow"], "note": "C82_only: the panic of a call is in Cmd.panics, in any live state (any program, stale cells included). C82_program: the same for whole programs from the start with no further hypotheses. C82_never: no index out of bounds, no impossible extension child, no unreachable code, no overflow without checks. C82_hashInsert, C82_hashOnExisting, C82_expectFailed, C82_hashDelete, C82_assertFailed, C82_overflow: every panic in every list occurs, in both tries and profiles."},
{"property": "C83", "status": "proved", "theorems": ["EthTrie.C83_values", "EthTrie.C83_value", "EthTrie.C83_inserts", "EthTrie.C83_delete"], "note": "C83_values: no two values for a key. C83_value: a value of one is the value in the other unless the key leads to a hash node there (without overflow checks: for keys not shorter than a path of the other, see C44). C83_inserts: any list of insertions that returns in both gives equal root hashes. C83_delete: deletions, with the exception in the statement, which is needed (C34_false). The alternative is always a collision of two nodes at the same position of the tries before."},
{"property": "C84", "status": "proved", "theorems": ["EthTrie.C84_chain", "EthTrie.C84_honest"], "note": "C84_chain: soundness, for any senders. C84_honest: completeness, with the subsets made by the library from the full trie after the blocks before. Deletions are left out here (see C85) because the root hash of a partial trie can be wrong after them (C34_false, C83_delete), and absence is not claimed because a lookup that ends at a hash node also answers none (C20, C47_absent)."},
{"property": "C85", "status": "proved", "theorems": ["EthTrie.C85_step", "EthTrie.C85_steps", "EthTrie.C85_chain", "EthTrie.C85_honest"], "note": "C85_step: one call. C85_steps: one block. C85_chain: the chain. The check before a deletion (OntoHash) is needed because of C34_false; it is sufficient but stronger than what is necessary, as a hash node that stands for a branch does no harm (C34_exact), which the follower cannot see. C85_honest: which subsets make all checks succeed; the condition on deletions (Siblings) is said with the contents only."},
{"property": "C86", "status": "proved", "theorems": ["EthTrie.C86_reference"], "note": "C86_reference: an equation with KCall.runOn, which uses nothing of the tries but the Yellow Paper root and the conversion of a hash to nibbles."},
{"property": "C87", "status": "proved", "theorems": ["EthTrie.C87_key", "EthTrie.C87_release", "EthTrie.C87_checked", "EthTrie.C87_false"], "note": "C87_key: the conversion. C87_release: builds without overflow checks. C87_checked: all builds, under the condition on lookups (LooksOK). C87_false: the panic without the condition."},
{"property": "C88", "status": "proved", "theorems": ["EthTrie.C88_reference", "EthTrie.C88_clone", "EthTrie.C88_other"], "note": "C88_reference: tables. C88_clone: clones. C88_other: other keys are not found in a subset. Deletions with subsets need further conditions on the contents (C73, C85)."},
{"property": "C89", "status": "proved", "theorems": ["EthTrie.C89_reference", "EthTrie.C89_clone", "EthTrie.C89_false"], "note": "C89_reference: tables. C89_clone: clones. C89_false: without the condition the root hash can be wrong (the missing collapse next to a hash node of C73). Spare.of_all: a subset for all rows meets the condition."},
{"property": "C90", "status": "proved", "theorems": ["EthTrie.C90_reference", "EthTrie.C90_clone", "EthTrie.C90_state", "EthTrie.C90_lists"], "note": "C90_reference: tables. C90_clone: clones. C90_state: state roots from subsets of the accounts and of their storages. C90_lists: all other calls."},
{"property": "C91", "status": "proved", "theorems": ["EthTrie.C91_reference", "EthTrie.C91_index", "EthTrie.C91_subsets", "EthTrie.C91_panics"], "note": "C91_reference: full tries, hashes as keys. C91_index: indexes as keys. C91_subsets: with subsets. C91_panics: no panics with subsets. The concurrent model and its assumptions are those of C48."}
]}
