{"id": "C01", "title": "Nibbles are exactly nibble sequences", "statement": "Two keys compare equal with == iff they denote the same sequence of nibbles, and every public constructor and operation on keys returns a key whose unused high bits are zero (so equality, hashing and ordering never see garbage).", "quantifier": "all keys up to the 128-nibble capacity and all argument values of every public key operation", "why_tests_cant": "The state space is 2^512 packed integers times the count; tests only try a handful of small keys.", "anchors": ["src/nibbles.rs::Nibbles", "src/nibbles.rs::Nibbles::*"]}
{"id": "C02", "title": "Indexing a key", "statement": "get_nibble(i) returns the i-th nibble counted from the front, and panics exactly when i is not smaller than the number of nibbles.", "quantifier": "all keys, all indices, both build profiles (overflow checks on/off)", "why_tests_cant": "Only indices 0 and 3 of one key are tested.", "anchors": ["src/nibbles.rs::Nibbles::get_nibble"]}
{"id": "C03", "title": "Slicing, truncating, popping and splitting keys", "statement": "get_nibble_range, get_next_nibbles, split_at_idx(_prefix/_postfix), truncate_n_nibbles_front/back(_mut), pop_next_nibble_front/back and pop_nibbles_front/back behave as take/drop on the nibble sequence (pop_nibbles_back returns the popped nibbles reversed); truncation clamps; out-of-range requests panic when overflow checks are on.", "quantifier": "all keys and all offsets", "why_tests_cant": "Shifts and masks can be wrong for particular lengths or offsets (e.g. at 64 or 128 nibbles) that sampled tests never hit.", "anchors": ["src/nibbles.rs::Nibbles::get_nibble_range", "src/nibbles.rs::Nibbles::split_at_idx", "src/nibbles.rs::Nibbles::truncate_n_nibbles_front_mut", "src/nibbles.rs::Nibbles::pop_nibbles_back"]}
{"id": "C04", "title": "Concatenating keys", "statement": "merge_nibbles, merge_nibble, push_nibble_front/back and push_nibbles_front concatenate the nibble sequences, and panic exactly when the result would exceed 64 nibbles or the pushed nibble exceeds 0xf.", "quantifier": "all pairs of keys and all nibble values", "why_tests_cant": "The overflow boundary and all shift amounts must be covered.", "anchors": ["src/nibbles.rs::Nibbles::merge_nibbles", "src/nibbles.rs::Nibbles::push_nibble_front", "src/nibbles.rs::Nibbles::push_nibbles_front"]}
{"id": "C05", "title": "Reversing a key", "statement": "reverse returns the key whose nibble sequence is the reverse of the original; reversing twice gives back the original.", "quantifier": "all keys up to capacity", "why_tests_cant": "Loop with a running mask; only four keys are tested.", "anchors": ["src/nibbles.rs::Nibbles::reverse"]}
{"id": "C06", "title": "Common prefix computation", "statement": "find_nibble_idx_that_differs_between_nibbles_(different|equal)_lengths returns the length of the longest common prefix of the two keys, and nibbles_are_identical_up_to_smallest_count is true iff one key is a prefix of the other.", "quantifier": "all pairs of keys", "why_tests_cant": "Insertion correctness hinges on this for every pair of keys.", "anchors": ["src/nibbles.rs::Nibbles::find_nibble_idx_that_differs_between_nibbles_different_lengths", "src/nibbles.rs::Nibbles::nibbles_are_identical_up_to_smallest_count"]}
{"id": "C07", "title": "Byte string conversions", "statement": "from_bytes_be succeeds exactly for slices of 1 to 33 bytes, yields the two nibbles of each byte in order, and bytes_be gives the same bytes back; from_bytes_le(b) equals from_bytes_be(reverse b); from_h256_be/le yield the 64 nibbles of the hash; bytes_be of any key gives its nibbles packed big-endian.", "quantifier": "all byte strings and all keys", "why_tests_cant": "Round-trip over an unbounded set of inputs.", "anchors": ["src/nibbles.rs::Nibbles::from_bytes_be", "src/nibbles.rs::Nibbles::from_bytes_le", "src/nibbles.rs::Nibbles::bytes_be", "src/nibbles.rs::Nibbles::from_h256_be"]}
{"id": "C08", "title": "Integer conversions", "statement": "Converting an integer (u8..u64, U128, U256, U512) to a key yields its base-16 digits without leading zeros (empty key for 0); to_nibbles_byte_padded yields the same digits with at most one leading zero nibble so the length is even; try_into_u256 of a key of at most 64 nibbles gives back the integer denoted by its digits.", "quantifier": "all integers of every supported width", "why_tests_cant": "Leading-zero arithmetic for every value and width.", "anchors": ["src/nibbles.rs::impl_to_nibbles", "src/nibbles.rs::ToNibbles::to_nibbles_byte_padded", "src/nibbles.rs::Nibbles::try_into_u256"]}
{"id": "C09", "title": "Hex strings round-trip", "statement": "Formatting a key gives 0x followed by exactly one lower-case (upper-case) hex digit per nibble; parsing a hex string (with or without 0x) of at most 128 digits yields one nibble per digit including leading zeros; parse(format(k)) = k; parsing fails exactly on non-hex characters or more than 128 digits.", "quantifier": "all keys and all strings", "why_tests_cant": "Unbounded set of strings; odd/even length and leading-zero handling interact.", "anchors": ["src/nibbles.rs::FromStr for Nibbles", "src/nibbles.rs::Nibbles::as_hex_str", "src/nibbles.rs::LowerHex for Nibbles"]}
{"id": "C10", "title": "Hex-prefix encoding is the yellow-paper one", "statement": "to_hex_prefix_encoding equals the Ethereum yellow paper's HP function for every key and leaf flag, and is injective in (key, flag).", "quantifier": "all keys (up to capacity), both flags", "why_tests_cant": "Hash agreement with Ethereum needs it for every key length and parity.", "anchors": ["src/nibbles.rs::Nibbles::to_hex_prefix_encoding"]}
{"id": "C11", "title": "Hex-prefix decoding inverts encoding", "statement": "from_hex_prefix_encoding(to_hex_prefix_encoding(k, is_leaf)) gives back k, and decoding reports an error exactly for inputs longer than 33 bytes or with invalid flags.", "quantifier": "all keys whose encoding is at most 33 bytes, both flags, and all byte strings for the error cases", "why_tests_cant": "Round-trip over all keys; the existing tests only pin four examples.", "anchors": ["src/nibbles.rs::Nibbles::from_hex_prefix_encoding"]}
{"id": "C12", "title": "Trie refines a finite map for prefix-free keys", "statement": "For any history of insert / extend / delete / get calls whose keys come from a set in which no key is a proper prefix of another (e.g. fixed-length keys), every get and delete returns exactly what a finite map would return, and no call panics.", "quantifier": "all prefix-free key sets of keys up to 64 nibbles, all values, all finite histories, both build profiles", "why_tests_cant": "Unbounded histories; node splitting and merging depends on the whole history.", "anchors": ["src/partial_trie.rs::PartialTrie::insert", "src/partial_trie.rs::PartialTrie::get", "src/partial_trie.rs::PartialTrie::delete", "src/trie_ops.rs::insert_into_trie_rec", "src/trie_ops.rs::delete_intern"]}
{"id": "C13", "title": "get never returns a value for a key that was not inserted", "statement": "get(k) returns Some(v) only if (k, v) is currently stored.", "quantifier": "all tries reachable from the public API and all keys of any length", "why_tests_cant": "Requires every pair of stored and queried keys of different length.", "anchors": ["src/trie_ops.rs::Node::trie_get_intern"]}
{"id": "C14", "title": "A stored key is always found, for keys of any lengths", "statement": "After insert(k, v) with non-empty v, get(k) returns v and the entries of all other keys are unchanged, for arbitrary variable-length keys.", "quantifier": "all histories with arbitrary keys of at most 127 nibbles", "why_tests_cant": "Depends on where in the existing structure the key ends.", "anchors": ["src/trie_ops.rs::insert_into_trie_rec"]}
{"id": "C15", "title": "delete removes exactly one key, for keys of any lengths", "statement": "delete(k) returns the stored value and removes k only; every other entry is kept; deleting an absent key returns None and changes nothing; it never panics on tries without hash nodes.", "quantifier": "all histories with arbitrary keys of at most 64 nibbles", "why_tests_cant": "Branch collapsing with and without branch values needs all shapes.", "anchors": ["src/trie_ops.rs::delete_intern", "src/trie_ops.rs::collapse_ext_node_if_needed"]}
{"id": "C16", "title": "Construction order does not matter", "statement": "Building a trie from the same entries with distinct (pairwise prefix-incomparable) keys in any order gives equal tries (==) with equal root hashes; more generally any two valid histories ending in the same contents give equal tries.", "quantifier": "all entry lists and all permutations; all pairs of histories", "why_tests_cant": "n! orders, unbounded n.", "anchors": ["src/partial_trie.rs::FromIterator", "src/partial_trie.rs::PartialTrie::extend", "src/partial_trie.rs::PartialEq for Node"]}
{"id": "C17", "title": "delete undoes insert", "statement": "Inserting a fresh key and then deleting it returns the inserted value and leaves a trie equal (==) to the original, with the same root hash.", "quantifier": "all valid tries, keys and values", "why_tests_cant": "Requires all structural splits to be undone.", "anchors": ["src/trie_ops.rs::delete_intern", "src/trie_ops.rs::insert_into_trie_rec"]}
{"id": "C18", "title": "items() enumerates the contents exactly once", "statement": "items() yields exactly the stored entries (values and hash nodes with their full keys), each once; keys() and values() are its projections; it never panics and terminates.", "quantifier": "all reachable tries with keys up to 64 nibbles", "why_tests_cant": "The iterator keeps an explicit stack and a running key whose bookkeeping depends on the entire shape.", "anchors": ["src/trie_ops.rs::PartialTrieIter", "src/partial_trie.rs::PartialTrie::items"]}
{"id": "C19", "title": "items() order", "statement": "items() yields keys in ascending lexicographic nibble order (a key that is a prefix of others comes after them).", "quantifier": "all reachable tries", "why_tests_cant": "Order over all shapes.", "anchors": ["src/trie_ops.rs::PartialTrieIter"]}
{"id": "C20", "title": "Hash nodes are opaque", "statement": "insert and delete with a key that reaches a hash node always panic rather than silently change anything, get returns None there, and inserting a hash node onto an existing entry panics.", "quantifier": "all reachable tries containing hash nodes, all keys", "why_tests_cant": "All positions of hash nodes relative to all keys.", "anchors": ["src/trie_ops.rs::insert_into_trie_rec", "src/trie_ops.rs::delete_intern", "src/trie_ops.rs::create_node_if_ins_val_not_hash"]}
{"id": "C21", "title": "Root hash is the yellow-paper root", "statement": "For any valid history of inserts and deletes of values, hash() equals the yellow paper's TRIE(J) of the resulting set of key/value pairs J.", "quantifier": "all valid histories, any hash function in place of Keccak", "why_tests_cant": "Equality for every possible contents; tests compare samples with another library.", "anchors": ["src/trie_hashing.rs::hash_trie", "src/trie_hashing.rs::rlp_encode_and_hash_node", "src/partial_trie.rs::PartialTrie::hash"]}
{"id": "C22", "title": "Root hash depends only on the contents", "statement": "Two tries with equal contents (reached by any valid histories, with either trie type) have equal root hashes.", "quantifier": "all pairs of valid histories", "why_tests_cant": "Quantifies over pairs of histories.", "anchors": ["src/partial_trie.rs::PartialTrie::hash"]}
{"id": "C23", "title": "Standard and hashed tries agree", "statement": "Performing the same sequence of operations on a StandardTrie and a HashedPartialTrie gives the same results, the same contents and the same root hash.", "quantifier": "all histories", "why_tests_cant": "Unbounded histories of two implementations.", "anchors": ["src/partial_trie.rs::StandardTrie", "src/partial_trie.rs::HashedPartialTrie"]}
{"id": "C24", "title": "Cached hashes are never stale", "statement": "In every history of constructing, cloning, mutating, hashing and taking subsets of HashedPartialTries (clones share a cache cell), hash() returns the hash recomputed from the current contents.", "quantifier": "all histories over any number of handles", "why_tests_cant": "Cache invalidation bugs appear only in particular orders of clone, subset, mutate and hash.", "anchors": ["src/partial_trie.rs::HashedPartialTrie::get_hash", "src/partial_trie.rs::HashedPartialTrie::hash_intern", "src/partial_trie.rs::HashedPartialTrie::set_hash"]}
{"id": "C25", "title": "Concurrent hashing is safe", "statement": "Any number of threads hashing tries that share sub-tries (and hence cache cells) all obtain the correct hash, for every interleaving of cache reads and writes.", "quantifier": "all thread counts, all schedules, all initial cache contents that are valid", "why_tests_cant": "Schedules cannot be enumerated by tests.", "anchors": ["src/partial_trie.rs::HashedPartialTrie::hash_intern"]}
{"id": "C26", "title": "Replacing a large sub-trie by its hash keeps the root hash", "statement": "Replacing any sub-tries whose encoding is at least 32 bytes by hash nodes carrying their hashes leaves the root hash unchanged.", "quantifier": "all tries, all sets of replaced positions", "why_tests_cant": "All positions and nestings.", "anchors": ["src/partial_trie.rs::Node::Hash", "src/trie_hashing.rs::rlp_encode_and_hash_node"]}
{"id": "C27", "title": "A trie subset has the root hash of the original", "statement": "Whenever create_trie_subset or create_trie_subsets succeeds, each returned trie has the same root hash as the base trie.", "quantifier": "all tries, all key lists", "why_tests_cant": "All tries and key sets.", "anchors": ["src/trie_subsets.rs::create_trie_subset", "src/trie_subsets.rs::create_trie_subsets"]}
{"id": "C28", "title": "A trie subset answers the requested keys", "statement": "For each requested key, get on the subset returns exactly what get on the base trie returns.", "quantifier": "all tries, all key lists", "why_tests_cant": "All tries and key sets.", "anchors": ["src/trie_subsets.rs::create_trie_subset"]}
{"id": "C29", "title": "A trie subset is minimal", "statement": "In the subset every node that is not on the traversal path of a requested key is either a hash node, or has an encoding shorter than 32 bytes.", "quantifier": "all tries, all key lists", "why_tests_cant": "All tries and key sets.", "anchors": ["src/trie_subsets.rs::create_partial_trie_subset_from_tracked_trie", "src/trie_subsets.rs::mark_nodes_that_are_needed"]}
{"id": "C30", "title": "When taking a subset fails", "statement": "create_trie_subset returns an error exactly when the first offending key runs into a hash node with nibbles left over; a key that is merely absent is not an error.", "quantifier": "all tries, all key lists", "why_tests_cant": "All tries and key sets; short keys ending inside an extension are a corner case.", "anchors": ["src/trie_subsets.rs::mark_nodes_that_are_needed", "src/trie_subsets.rs::SubsetTrieError"]}
{"id": "C31", "title": "A subset depends only on the set of keys and is idempotent", "statement": "Reordering or repeating the requested keys does not change the subset; taking the subset of a subset with the same keys changes nothing.", "quantifier": "all tries, all key lists", "why_tests_cant": "All permutations of all key lists.", "anchors": ["src/trie_subsets.rs::create_trie_subset"]}
{"id": "C32", "title": "Batch subsets equal individual subsets", "statement": "create_trie_subsets(t, [ks1, ks2, ...]) returns the same tries as calling create_trie_subset(t, ksi) separately for each i.", "quantifier": "all tries, all lists of key lists", "why_tests_cant": "State reset between subsets must work for all shapes and key sequences.", "anchors": ["src/trie_subsets.rs::create_trie_subsets", "src/trie_subsets.rs::reset_tracked_trie_state"]}
{"id": "C33", "title": "Inserting into a partial trie tracks the full trie", "statement": "If p is a partial view of t (some sub-tries replaced by their hashes) and insert(k, v) succeeds on p, then it succeeds on t and the two resulting tries again have equal root hashes; iterating over any history.", "quantifier": "all tries, partial views and histories", "why_tests_cant": "All views and histories.", "anchors": ["src/trie_ops.rs::insert_into_trie_rec", "src/trie_subsets.rs::create_trie_subset"]}
{"id": "C34", "title": "Deleting from a partial trie tracks the full trie", "statement": "If p is a partial view of t and delete(k) succeeds on p, then delete(k) on t returns the same value and the resulting tries have equal root hashes.", "quantifier": "all tries and partial views", "why_tests_cant": "Depends on whether a collapsing branch is left with a hash node child.", "anchors": ["src/trie_ops.rs::delete_intern", "src/trie_ops.rs::collapse_ext_node_if_needed"]}
{"id": "C35", "title": "The root hash commits to the contents", "statement": "If two tries without hash nodes have equal root hashes then they are equal, or an explicit collision of the hash function is exhibited.", "quantifier": "all pairs of tries with values shorter than 2^64 bytes", "why_tests_cant": "Quantifies over all pairs of tries; rests on injectivity of the encodings.", "anchors": ["src/trie_hashing.rs::rlp_encode_and_hash_node"]}
{"id": "C36", "title": "Trie equality", "statement": "== on tries is structural equality that ignores caches: an equivalence relation; equal tries have the same contents, gets and hash; for reachable tries == holds iff the contents are equal.", "quantifier": "all pairs of tries", "why_tests_cant": "All pairs.", "anchors": ["src/partial_trie.rs::PartialEq for Node", "src/partial_trie.rs::PartialEq for HashedPartialTrie"]}
{"id": "C37", "title": "Reachable tries are canonical", "statement": "Every trie reached by a valid history is in canonical form: extensions are non-empty and point to a branch or a hash node, every branch has at least two occupied slots (children or value), and no path is longer than the longest key (at most 127 nibbles).", "quantifier": "all valid histories", "why_tests_cant": "Invariant over histories.", "anchors": ["src/trie_ops.rs::insert_into_trie_rec", "src/trie_ops.rs::delete_intern"]}
{"id": "C38", "title": "Clones are independent snapshots", "statement": "After cloning a trie, no operation on one copy changes the contents, get results or items of the other.", "quantifier": "all interleavings of operations on any number of clones", "why_tests_cant": "Copy-on-write sharing under all histories.", "anchors": ["src/partial_trie.rs::WrappedNode", "src/partial_trie.rs::HashedPartialTrie"]}
{"id": "C39", "title": "Trie statistics are exact", "statement": "get_trie_stats reports the exact number of nodes of each kind; total = 1 + 16*branches + extensions; leaf+hash counts plus non-empty branch values equal the number of items(); lowest_depth is the maximal depth of a leaf or hash node.", "quantifier": "all tries", "why_tests_cant": "All shapes.", "anchors": ["src/debug_tools/stats.rs::get_trie_stats"]}
{"id": "C40", "title": "Query debug tool reports whether a key exists", "statement": "get_path_from_query(t, k) reports node_found = true iff k is stored, and lists the node types and key pieces along the lookup path.", "quantifier": "all tries and keys", "why_tests_cant": "All shapes and keys; the module has no tests.", "anchors": ["src/debug_tools/query.rs::get_path_from_query"]}
{"id": "C41", "title": "Diff debug tool detects differences", "statement": "create_diff_between_tries(a, b) reports no difference iff the root hashes are equal, and never panics.", "quantifier": "all pairs of tries", "why_tests_cant": "All pairs; most tests of the module are unimplemented.", "anchors": ["src/debug_tools/diff.rs::create_diff_between_tries"]}
{"id": "C42", "title": "Integer values are stored big-endian", "statement": "Inserting an integer value (u8..u64, U128, U256, U512) stores its fixed-width big-endian byte representation and never panics.", "quantifier": "all integers of each width", "why_tests_cant": "All widths and values.", "anchors": ["src/trie_ops.rs::impl_eth_type_from_for_val_variant", "src/trie_ops.rs::impl_prim_int_from_for_val_variant"]}
{"id": "C43", "title": "Inserting an empty value", "statement": "insert(k, []) has a uniform observable effect: either get(k) is Some([]) afterwards for every trie, or None for every trie.", "quantifier": "all tries and keys", "why_tests_cant": "Depends on whether the key lands in a leaf or a branch.", "anchors": ["src/trie_ops.rs::insert_into_trie_rec", "src/trie_ops.rs::Node::trie_get_intern"]}
{"id": "C44", "title": "get on release builds", "statement": "Without overflow checks (release profile), get(k) returns only values stored under k, for keys ending inside an extension.", "quantifier": "all tries, all keys", "why_tests_cant": "Wrapping arithmetic on particular lengths.", "anchors": ["src/trie_ops.rs::Node::trie_get_intern", "src/nibbles.rs::Nibbles::pop_nibbles_front"]}
{"id": "C45", "title": "extend is repeated insert", "statement": "extend(xs ++ ys) is extend(xs) followed by extend(ys), and from_iter(xs) is extend on the empty trie; the last entry for a key wins.", "quantifier": "all entry lists", "why_tests_cant": "All lists with repeated keys.", "anchors": ["src/partial_trie.rs::PartialTrie::extend", "src/partial_trie.rs::from_iter_common"]}
{"id": "C46", "title": "Key ordering is total and consistent with equality", "statement": "The derived ordering on keys is a total order consistent with ==: it compares length first, then nibbles lexicographically.", "quantifier": "all pairs and triples of keys", "why_tests_cant": "All triples.", "anchors": ["src/nibbles.rs::Nibbles (derive Ord)"]}
{"id": "C47", "title": "A partial trie proves lookups of the full trie", "statement": "If a partial trie (with hash nodes below the root) has the root hash of a trie without hash nodes, then every value read from it is the value of the full trie, and every key whose path does not end in a hash node has the same lookup result in both, or an explicit collision of the hash function is exhibited.", "quantifier": "all pairs of tries with values shorter than 2^64 bytes, all keys", "why_tests_cant": "Soundness of Merkle proofs quantifies over all (adversarial) partial tries.", "anchors": ["src/trie_hashing.rs::rlp_encode_and_hash_node", "src/trie_ops.rs::trie_get", "src/trie_subsets.rs::create_trie_subset"]}
{"id": "C48", "title": "Concurrent calls are linearizable", "statement": "Several threads share tries within Rust's borrow rules and call any functions of the crate; they start in any state that programs reach; their accesses to cache cells are interleaved in any way. Every call that has ended returned what it returns in the sequential program that makes the calls in the order in which they ended, and the tries are those of that program; a call panics only if it panics there; no thread waits for another, and calls end under every schedule. When no thread is in a call, the program can go on in any other way, and later calls return what they return in the sequential program. For HashedPartialTrie this needs that tries are not cloned, or that no subsets for empty key lists are made; otherwise it fails.", "quantifier": "all programs with any number of threads, all schedules, both trie types, all hash functions, both build profiles", "why_tests_cant": "Interleavings of cache accesses cannot be enumerated or forced by tests.", "anchors": ["src/partial_trie.rs::HashedPartialTrie", "src/partial_trie.rs::HashedPartialTrie::set_hash", "src/trie_hashing.rs::hash_trie", "src/trie_subsets.rs::create_trie_subsets"]}
{"id": "C49", "title": "Paths and diff reports are printed unambiguously", "statement": "The Display implementations of PathSegment, NodePath, NodeInfo, DiffPoint and TrieDiff do not panic on anything the diff tool returns, a path is printed as its segments separated by arrows, and two paths or two diff reports that are printed alike are equal.", "quantifier": "all paths and diff reports with keys of at most 128 nibbles; all pairs of tries of all programs, both build profiles", "why_tests_cant": "Injectivity of a printer is a statement about all pairs of inputs; key texts have no fixed length and the separators could be part of them.", "anchors": ["src/debug_tools/common.rs::PathSegment::fmt", "src/debug_tools/common.rs::NodePath::fmt", "src/debug_tools/diff.rs::DiffPoint::fmt", "src/debug_tools/diff.rs::NodeInfo::fmt", "src/nibbles.rs::Nibbles::fmt"]}
{"id": "C50", "title": "Query results are printed completely and unambiguously", "statement": "Printing the result of get_path_from_query never panics (its index and length arithmetic is always in range): the text is the header followed by the texts of all visited nodes in order, separated by lines with V. With the default parameters (node types and key pieces) the text determines the queried key, whether the node was found and the whole path; if the specific values are printed, also those.", "quantifier": "all tries of all programs, all keys of at most 127 nibbles, all printing parameters, both build profiles", "why_tests_cant": "The printer indexes two vectors with an index computed by subtraction; that they always have the same positive length depends on the traversal of an arbitrary trie.", "anchors": ["src/debug_tools/query.rs::DebugQueryOutput::fmt", "src/debug_tools/query.rs::DebugQueryOutput::fmt_node_based_on_debug_params", "src/debug_tools/query.rs::get_path_from_query"]}
{"id": "C51", "title": "Statistics of a subset never exceed those of the original", "statement": "TrieStats::compare of a subset made by create_trie_subset (or of any partial view) with the trie it was made from returns without overflow, and in every count but that of hash nodes (total, non-empty, empty, branches, extensions, leaves, leaves and hash nodes together), in the lowest depth and in the sum of leaf depths the subset is at most the original. The subset is equal to the original exactly if it has as many branches, extensions and leaves.", "quantifier": "all canonical tries and their partial views; all tries of all programs and all key lists of at most 64 nibbles; both build profiles", "why_tests_cant": "An inequality between recursively collected counters of two different tries, for every trie and every choice of keys.", "anchors": ["src/debug_tools/stats.rs::TrieStats::compare", "src/debug_tools/stats.rs::NodeCounts::compare", "src/debug_tools/stats.rs::DepthStats::compare", "src/trie_subsets.rs::create_trie_subset"]}
{"id": "C52", "title": "Sub-tries taken out of a trie behave as tries of their own", "statement": "A sub-trie obtained through Deref has exactly the entries below its path, its hash is the hash computed from scratch, it equals any trie with these entries built separately, and a trie obtained from it (by cloning the wrapper or by wrapping the node with N::new) can be used and changed like any other without either trie noticing.", "quantifier": "all programs of trie calls, node accesses and node wrapping, all nodes of all tries, both trie types, both build profiles", "why_tests_cant": "Aliasing of cache cells between inner nodes and their clones is only visible for particular orders of changing and hashing; the claim is about all of them.", "anchors": ["src/partial_trie.rs::HashedPartialTrie::deref", "src/partial_trie.rs::StandardTrie::deref", "src/partial_trie.rs::HashedPartialTrie::new", "src/partial_trie.rs::HashedPartialTrie::hash_intern"]}
{"id": "C53", "title": "Overwriting the node of a trie", "statement": "After the node of a trie is overwritten through DerefMut, get, items, == and hash all describe the new node.", "quantifier": "all programs of trie calls, node accesses and overwrites, all nodes of all tries, both trie types, both build profiles", "why_tests_cant": "Whether the cache cell of the root is filled depends on the whole history of the program.", "anchors": ["src/partial_trie.rs::HashedPartialTrie::deref_mut", "src/partial_trie.rs::StandardTrie::deref_mut", "src/partial_trie.rs::HashedPartialTrie::get_hash"]}
{"id": "C54", "title": "Averages and percentages in the statistics", "statement": "The average leaf (hash) depth is the average of the depths of all leaves (hash nodes) up to rounding and lies between the least depth and the lowest depth reported; the percentages of the kinds of nodes are right up to rounding and between 0 and 100; comparing a subset with the original, no percentage except those for hash nodes and averages is above 100.", "quantifier": "all tries whose number of nodes and sum of depths are below 2^64, both build profiles", "why_tests_cant": "The effect of rounding depends on the counters; the first tries whose average exceeds all depths have more than 2^24 leaves.", "anchors": ["src/debug_tools/stats.rs::get_trie_stats_common", "src/debug_tools/stats.rs::NodeCounts::write_node_count_stats", "src/debug_tools/stats.rs::RatioStat::get_a_over_b_perc"]}
{"id": "C55", "title": "Printed statistics are unambiguous", "statement": "Statistics and comparisons are printed without panic. The text of statistics determines the name (whatever characters it contains), all counts, the lowest depth and the printed averages; the text of a comparison determines all pairs of counts, the lowest depths and the printed averages. The printed averages are those of the node depths to three decimals, and NaN if there are no such nodes.", "quantifier": "all statistics and comparisons; all tries whose number of nodes and sum of depths are below 2^64, both build profiles", "why_tests_cant": "Injectivity of a text over all numbers and all names, including names that look like other parts of the text.", "anchors": ["src/debug_tools/stats.rs::TrieStats::fmt", "src/debug_tools/stats.rs::NodeCounts::fmt", "src/debug_tools/stats.rs::DepthStats::fmt", "src/debug_tools/stats.rs::TrieComparison::fmt", "src/debug_tools/stats.rs::RatioStat::fmt"]}
{"id": "C56", "title": "Serialised tries are read back", "statement": "Serialising a trie does not change it. Reading the result, in the same or another program, gives an equal trie with a cache cell of its own, with the same hash and the same serialised form, and the program goes on as if the trie had been built by calls; StandardTries are read back as they were.", "quantifier": "all tries of all programs of trie calls, node accesses and earlier reads, read in all such programs, both trie types, all build profiles and hash functions", "why_tests_cant": "The serialised form includes the cached hashes, which depend on the whole history of both programs.", "anchors": ["src/partial_trie.rs::Node", "src/partial_trie.rs::StandardTrie", "src/partial_trie.rs::HashedPartialTrie", "src/nibbles.rs::Nibbles"]}
{"id": "C57", "title": "Reading untrusted data", "statement": "Reading any data ends without panic and does not affect the other tries of the program; if a trie is read, it is a proper trie: keys are proper keys, extensions lead to branches or hash nodes, no call panics because of it, and hash() describes its contents.", "quantifier": "all data, all programs, both trie types, all build profiles and hash functions", "why_tests_cant": "The data are chosen by an adversary; tests read only what was serialised before.", "anchors": ["src/partial_trie.rs::Node", "src/partial_trie.rs::HashedPartialTrie", "src/nibbles.rs::Nibbles", "src/partial_trie.rs::HashedPartialTrie::get_hash"]}
{"id": "C58", "title": "Tries put together from nodes", "statement": "A trie that is made with new from a node, which is put together from new nodes and parts of other tries, has the contents of its parts under their paths and the right hash, does not change other tries, and is equal to a trie built by calls if it has the same contents; the same holds for a trie whose node is assigned. Programs that do this give the same results with StandardTrie and HashedPartialTrie.", "quantifier": "all node expressions, all programs of calls, node accesses and reads of serialised data, both trie types, all build profiles and hash functions", "why_tests_cant": "Children share cache cells with the tries they were cloned from; whether a stale hash shows depends on the order of all later calls.", "anchors": ["src/partial_trie.rs::Node", "src/partial_trie.rs::WrappedNode", "src/partial_trie.rs::PartialTrie::new", "src/partial_trie.rs::HashedPartialTrie::deref_mut"]}
{"id": "C59", "title": "Caught panics leave tries intact", "statement": "If a call panics and the panic is caught, all tries are as they were before the call and the cached hashes are right, except that extend has inserted the entries before the one that panicked (or before its iterator panicked). Programs that catch panics give the same results with StandardTrie and HashedPartialTrie.", "quantifier": "all calls in all states, all programs that catch panics, both trie types, all build profiles and hash functions", "why_tests_cant": "A panic can occur at any depth of any call, and its effect shows only in later calls.", "anchors": ["src/trie_ops.rs::Node::trie_insert", "src/trie_ops.rs::Node::trie_extend", "src/trie_ops.rs::Node::trie_delete", "src/partial_trie.rs::HashedPartialTrie::extend"]}
{"id": "C60", "title": "Hashing is incremental", "statement": "When hash() has computed the hash of a HashedPartialTrie, a later hash() of the trie or of a clone of it looks at no more nodes than a number that depends only on the lengths of the keys that were inserted into and deleted from it in between, and not on its size; changes of other tries and of clones do not count. hash() looks at every node at most once.", "quantifier": "all programs of calls with and without caught panics, all later calls, all build profiles and hash functions", "why_tests_cant": "The result of hash() is the same whether it is cached or not, so tests of results cannot see it, and how much is cached depends on all earlier calls.", "anchors": ["src/partial_trie.rs::HashedPartialTrie::get_hash", "src/partial_trie.rs::HashedPartialTrie::hash_intern", "src/trie_hashing.rs::rlp_encode_and_hash_node", "src/trie_ops.rs::insert_into_trie_rec", "src/trie_ops.rs::delete_intern"]}
{"id": "C61", "title": "Changes copy only the path", "statement": "insert makes at most n + 21 new nodes for a key of n nibbles and delete at most 2n + 3, whether they return or panic, and extend and from_iter at most the sum for their entries (and one); clone, get, items, == and hash() make none; subsets make at most as many as the trie has. So after any calls except subsets, all tries together have at most so many different nodes, however many times they were cloned.", "quantifier": "all calls in all states, both trie types, all programs with and without caught panics, all build profiles and hash functions", "why_tests_cant": "The contents are the same if a change copies the whole trie, so tests of results cannot see it, and the worst case depends on the shape of the trie.", "anchors": ["src/partial_trie.rs::WrappedNode", "src/trie_ops.rs::insert_into_trie_rec", "src/trie_ops.rs::delete_intern", "src/trie_ops.rs::Node::trie_extend", "src/trie_subsets.rs::create_partial_trie_subset_from_tracked_trie"]}
{"id": "C62", "title": "Subsets are small", "statement": "A subset of a trie consists of new nodes only. It has at most 18 nodes and 288 for each nibble of the keys and for each key, however large the trie is, and no more nodes than the trie. For create_trie_subsets the keys of the list and of the earlier lists count.", "quantifier": "all states, all lists of keys of at most 127 nibbles, both trie types, all build profiles and hash functions", "why_tests_cant": "The worst case depends on the shape of the trie along all keys and on which encodings are shorter than 32 bytes.", "anchors": ["src/trie_subsets.rs::create_trie_subset", "src/trie_subsets.rs::create_trie_subsets", "src/trie_subsets.rs::create_partial_trie_subset_from_tracked_trie"]}
{"id": "C63", "title": "Tries are no larger and no deeper than needed", "statement": "A canonical trie with n entries (hash nodes included) has at most 18n - 16 nodes, and one node if it has no entries. In any state no node of a trie is deeper than 127 (nor, if the trie is canonical, than its longest key has nibbles), so no recursive function over nodes calls itself more than 128 levels deep.", "quantifier": "all states (the number of nodes: all canonical tries in all states), both trie types, all build profiles and hash functions", "why_tests_cant": "Both are bounds over all shapes of tries that programs can make.", "anchors": ["src/trie_ops.rs::insert_into_trie_rec", "src/trie_ops.rs::delete_intern", "src/trie_ops.rs::collapse_ext_node_if_needed"]}
{"id": "C64", "title": "Partial tries put together by hand", "statement": "If a trie is built from the entries of another trie that are needed and, for the others, the hashes of sub-tries (inserted under the keys where the nodes of these sub-tries begin, encodings of at least 32 bytes), then it has the root hash of the other trie and is a partial view of it, whatever the order of the calls; and if it has the root hash of the other trie then it was made in this way, or two different strings have the same hash. In particular a sub-trie with an encoding of less than 32 bytes, or one whose hash is inserted one nibble too early, changes the root hash (unless there is a collision).", "quantifier": "for all tries reached in any programs of either type, all choices of sub-tries, all orders of insertion and all hash functions", "why_tests_cant": "The example inserts one hash into one trie of four entries; which positions and sizes of sub-tries are right concerns all shapes of tries, and the converse is a statement about all other partial tries.", "anchors": ["examples/hash_nodes.rs:1-101", "README.md", "src/trie_ops.rs:264-275", "src/trie_ops.rs:363-449", "src/trie_hashing.rs:29-90", "src/partial_trie.rs:237-258"]}
{"id": "C65", "title": "Work on a partial trie instead of the full one", "statement": "Take a trie whose keys all have n nibbles, and a partial trie with some of its sub-tries replaced by hashes (a subset, or one put together by hand, in another program, of another type or in another build). Any sequence of lookups, insertions and deletions of keys that do not lead to a replaced sub-trie returns the same on both, without a panic. Afterwards both have the same root hash if a node of the full trie still begins wherever a sub-trie was replaced, in particular if nothing was deleted; and only then, unless there is a collision. A subset serves all keys it was made for.", "quantifier": "for all tries, partial tries, sequences of calls, both trie types, all build profiles and hash functions", "why_tests_cant": "The tests replay a few deletions and insertions on subsets of one trie. Equality of all answers and of the root hash for every sequence of calls is the point of partial tries, and there is a rare shape (a deletion that leaves a replaced leaf or extension alone in a branch) where the root hash is wrong.", "anchors": ["src/trie_subsets.rs:212-255", "src/trie_ops.rs:264-449", "src/trie_ops.rs:451-560", "README.md"]}
{"id": "C66", "title": "Subsets of partial tries", "statement": "A subset can be made from a partial trie instead of the full one: if the keys do not lead to a sub-trie that was replaced in the partial trie, the subset of the partial trie for these keys equals the subset of the full trie. So the subset is a partial view of every partial trie that serves its keys, i.e. the smallest of them; and a subset for some of the keys of a subset can be made from that subset.", "quantifier": "for all tries, partial tries of them (in another program, of another type, hand-made or deserialised) and lists of keys, both build profiles, all hash functions", "why_tests_cant": "The tests make subsets of full tries only and compare key sets. That no smaller partial trie serves the keys ranges over all partial tries.", "anchors": ["src/trie_subsets.rs:212-255", "src/trie_subsets.rs:257-342"]}
{"id": "C67", "title": "Keys of more than 64 nibbles", "statement": "Keys of 65 to 127 nibbles can be inserted, looked up, hashed and put into subsets like shorter ones. items(), keys() and values() panic exactly if some path has more than 64 nibbles. delete does what it does for shorter keys, except that it panics exactly if the deleted key departed from a run of more than 64 nibbles of the remaining keys, in which there is no fork and no end of a key. With 128 nibbles already the insertion of a second key panics.", "quantifier": "all tries of all programs with keys of at most 127 nibbles, all keys, both trie types, all build profiles and hash functions", "why_tests_cant": "No test uses keys of more than 64 nibbles. Whether a deletion trips the assertion depends on all other keys.", "anchors": ["src/nibbles.rs::Nibbles::merge_nibbles", "src/nibbles.rs::Nibbles::merge_nibble", "src/nibbles.rs::Nibbles::push_nibble_back", "src/trie_ops.rs::collapse_ext_node_if_needed", "src/trie_ops.rs::PartialTrieIter"]}
{"id": "C68", "title": "Iterators, one item at a time", "statement": "An iterator that is not exhausted returns, with its n-th call of next, the n-th entry in order; after the last entry it returns None on every further call. If there are keys of more than 64 nibbles, exactly the entries before the first such key are returned, and the next call panics.", "quantifier": "all live tries of all programs (both types, hand-made, deserialised), all numbers of calls, both build profiles, all hash functions", "why_tests_cant": "The tests collect iterators of random tries. That None is returned for ever, and after which item a panic comes, ranges over all tries and numbers of calls.", "anchors": ["src/trie_ops.rs::PartialTrieIter", "src/trie_ops.rs:202-285"]}
{"id": "C69", "title": "Error messages", "statement": "The messages of the errors say what went wrong: from_bytes_be and from_bytes_le give the number of bytes, from_hex_prefix_encoding gives invalid flags in binary and, for strings that are too long, their length, their bytes and the limit, and create_trie_subset gives the key that leads into a hash node.", "quantifier": "all byte strings; all live tries, keys of at most 127 nibbles, both types, profiles and hash functions", "why_tests_cant": "No test looks at a message. Arguments in the wrong order are well-typed, and for every string the message is well-formed.", "anchors": ["src/nibbles.rs:48-64", "src/nibbles.rs::Nibbles::from_hex_prefix_encoding", "src/trie_subsets.rs:23-27"]}
{"id": "C70", "title": "Debug texts of tries", "statement": "Every live trie can be printed with {:?}, which changes nothing, and two tries (perhaps of different programs) have the same text exactly if they are equal.", "quantifier": "all live tries of all programs, also of two different programs, profiles and hash functions; both types", "why_tests_cant": "That texts are different for all pairs of different tries cannot be sampled; whether a cached hash shows depends on the history of the trie.", "anchors": ["src/partial_trie.rs::Node", "src/partial_trie.rs::HashedPartialTrie", "src/partial_trie.rs::StandardTrie", "src/nibbles.rs::Debug for Nibbles"]}
{"id": "C71", "title": "Received tries can be checked against a root hash", "statement": "A program reads a serialised partial trie that somebody sent and compares its hash with the root hash of a full trie. If they are equal, the received trie is a partial view of the full one: every value read from it is in the full trie, and the program can go on with it; or two different node encodings with the same hash are known. Nothing else needs to be checked. In the other direction, a subset that was sent is received with the root hash of the original and answers the keys it was made for.", "quantifier": "all data, all full tries of all programs, both trie types on either side, all hash functions, both build profiles", "why_tests_cant": "It quantifies over all forged data; the failing ones (bits above the nibbles of a key, cached hashes) are not produced by any code of the crate.", "anchors": ["src/nibbles.rs::Nibbles", "src/nibbles.rs::Nibbles::to_hex_prefix_encoding", "src/partial_trie.rs::HashedPartialTrie", "src/partial_trie.rs::StandardTrie", "src/trie_hashing.rs::hash_trie", "src/trie_subsets.rs::create_trie_subset"]}
{"id": "C72", "title": "Collecting the items of a trie gives the trie back", "statement": "items() of a canonical trie, collected with from_iter into either trie type, gives a trie that is equal to the first and has the same hash; so this converts between StandardTrie and HashedPartialTrie.", "quantifier": "all canonical tries of all programs with paths of at most 64 nibbles (others make items() panic), both trie types on either side, all hash functions, both build profiles", "why_tests_cant": "Whether it works depends on how keys that are prefixes of others lie between the forks of the trie; random keys of equal length never have this shape.", "anchors": ["src/partial_trie.rs::from_iter_common", "src/partial_trie.rs::StandardTrie::items", "src/partial_trie.rs::HashedPartialTrie::items", "src/trie_ops.rs::Node::trie_items", "src/trie_ops.rs::Node::trie_insert"]}
{"id": "C73", "title": "A subset serves the calls whose keys it was made for, deletions included", "statement": "A subset of a trie with keys of one length is made for some keys; the same lookups, insertions and deletions of these keys are made on the subset and on the original. All answers are the same, and the two root hashes at the end are the same.", "quantifier": "all tries of all programs with keys of one length, all lists of keys, all sequences of calls, both trie types, all hash functions, both build profiles", "why_tests_cant": "It fails only if a deletion leaves one branch of a fork and this branch is a large leaf or extension that no key leads to; whether that happens depends on the keys that were not asked for.", "anchors": ["src/trie_subsets.rs::create_trie_subset", "src/trie_ops.rs::Node::trie_delete", "src/trie_ops.rs::try_collapse_if_extension", "src/trie_hashing.rs::hash_trie"]}
{"id": "C74", "title": "An iterator whose panics are caught goes on with the other entries", "statement": "`next` panics when the key it should return has more than 64 nibbles. A caller that catches such panics and goes on calling `next` gets all entries with keys of at most 64 nibbles, each exactly once, with its own key and in order, and after finitely many calls `None` for ever.", "quantifier": "all tries of all programs with keys of up to 127 nibbles, all numbers of calls of next, both trie types, all hash functions, both build profiles", "why_tests_cant": "The state an iterator is left in by a panic depends on where in the recursion it panicked; a wrong key shows only in the items after an extension that crosses the limit of 64 nibbles.", "anchors": ["src/trie_ops.rs::PartialTrieIter::next", "src/trie_ops.rs::advance_iter_to_next_empty_leaf_or_hash_node", "src/nibbles.rs::Nibbles::truncate_n_nibbles_back_mut"]}
{"id": "C75", "title": "Hashing is paid for once in a whole program", "statement": "However a program uses HashedPartialTries (clones, changes, hashes, subsets and caught panics in any order), it calls Keccak at most once for each node that it makes, once for each call that changes a trie and once for each call of hash(). Without subsets this is bounded by the lengths of the keys that are inserted and deleted and the number of calls, whatever the size of the tries.", "quantifier": "all programs with keys of up to 127 nibbles, all hash functions, both build profiles", "why_tests_cant": "The result does not depend on the cache: a trie that hashes everything again each time has the same hashes, and how much is hashed again depends on the order of all calls on all clones.", "anchors": ["src/partial_trie.rs::HashedPartialTrie::get_hash", "src/partial_trie.rs::HashedPartialTrie::hash_intern", "src/trie_hashing.rs::rlp_encode_and_hash_node", "src/trie_hashing.rs::hash_bytes_if_large_enough", "src/trie_subsets.rs::create_partial_trie_subset_from_tracked_trie"]}
{"id": "C76", "title": "Subsets for two lists of keys have a join", "statement": "If subsets of a trie can be made for two lists of keys, then one can be made for both lists together. The two are partial views of it, it has exactly the values that are in one of them, and it is the least such view: it is a partial view of every partial view of the trie that both subsets are partial views of. An empty list needs a trie whose cached hash is not stale.", "quantifier": "all states of programs, all pairs of lists of keys of up to 127 nibbles, all hash functions, both build profiles", "why_tests_cant": "Leastness speaks about all partial views, however they were made, and small nodes that are embedded in their parents stay visible without any key leading to them.", "anchors": ["src/trie_subsets.rs::create_trie_subset", "src/trie_subsets.rs::mark_nodes_that_are_needed", "src/trie_subsets.rs::create_partial_trie_subset_from_tracked_trie"]}
{"id": "C77", "title": "The contents of a subset are determined by the contents of the trie", "statement": "A subset contains exactly the entries of the trie that are not below a node that no key leads to and whose encoding has 32 bytes or more, and in the place of the first such node on each way the root hash of the entries below it. This holds in builds with overflow checks, and in other builds if no key is shorter than a stored one.", "quantifier": "all reached states of programs, all lists of keys of up to 127 nibbles for which a subset is made, all hash functions", "why_tests_cant": "Which nodes are replaced by hashes depends on the lengths of all encodings in the trie, on all keys, and on which of them end inside the nibbles of a node.", "anchors": ["src/trie_subsets.rs::create_trie_subset", "src/trie_subsets.rs::mark_nodes_that_are_needed", "src/trie_subsets.rs::create_partial_trie_subset_from_tracked_trie", "src/trie_hashing.rs::hash_bytes_if_large_enough"]}
{"id": "C78", "title": "Turning overflow checks off takes away overflow panics and changes nothing else", "statement": "Every program either panics because of an overflow in a build with overflow checks, or does exactly the same in both builds: the same results, the same panic, the same tries and caches afterwards. The same holds for programs that catch panics, for all functions on keys, the iterators, the debugging tools and their texts. Programs that do not call get or make subsets, with keys of up to 127 nibbles, do the same in both builds in any case.", "quantifier": "all programs with keys of any length, all hash functions, both trie types, all states", "why_tests_cant": "Tests run in one build; that the other one does not differ anywhere else is a statement about all pairs of runs.", "anchors": ["src/nibbles.rs::Nibbles::get_nibble", "src/nibbles.rs::Nibbles::get_nibble_range", "src/nibbles.rs::Nibbles::pop_nibbles_front", "src/trie_ops.rs::insert_into_trie_rec", "src/trie_ops.rs::trie_get_intern", "src/trie_subsets.rs::mark_nodes_that_are_needed", "src/debug_tools/query.rs::get_path_from_query_rec"]}
{"id": "C79", "title": "Reading is not seen, and Keccak is seen in hashes and subsets only", "statement": "Calls that only read (get, hash, items, ==) can be left out of a program, or added where they do not panic, without changing what any other call returns, although hash fills cache cells and cells may be stale. get, items and == can be left out even if they panic and the panic is caught. Programs without subsets return the same for any two hash functions, hashes aside.", "quantifier": "all programs with keys of up to 127 nibbles (for caught panics: any keys and states), both trie types, all pairs of hash functions, both build profiles", "why_tests_cant": "hash has side effects on cells that clones share; that none of them is seen later is a statement about all pairs of programs that differ in such calls.", "anchors": ["src/partial_trie.rs::HashedPartialTrie::get_hash", "src/partial_trie.rs::HashedPartialTrie::hash_intern", "src/partial_trie.rs::PartialTrie::hash", "src/trie_ops.rs::trie_get_intern", "src/trie_hashing.rs::hash_trie"]}
{"id": "C80", "title": "Calls with different keys may be reordered", "statement": "If two sequences of lookups, insertions of values and deletions contain, for every single key, the same calls in the same order (and only interleave the calls for different keys differently), then run on tries with the same contents they return the same for every call and leave equal tries with the same root hash.", "quantifier": "all pairs of call sequences, all contents (full and partial tries), both trie types (also one of each), both build profiles", "why_tests_cant": "The number of interleavings is exponential in the number of keys; on the tree, each order makes and collapses different branch and extension nodes on the way.", "anchors": ["src/trie_ops.rs::insert_into_trie_rec", "src/trie_ops.rs::delete_intern", "src/trie_ops.rs::trie_get_intern", "src/trie_ops.rs::trie_delete"]}
{"id": "C81", "title": "Changes can be rolled back", "statement": "If the value of a key is looked up before every insertion under it (delete returns it), then putting the values back in reverse order (inserting the old value, or deleting the key if there was none) gives a trie equal to the original with the same root hash, and no other trie is affected.", "quantifier": "all sequences of insertions of values, deletions and lookups, all contents (full and partial tries), both trie types, both build profiles", "why_tests_cant": "Branches and extensions are made and collapsed on the way there and back in different orders; that the shape and the caches always return to what they were is a statement about all sequences.", "anchors": ["src/trie_ops.rs::insert_into_trie_rec", "src/trie_ops.rs::delete_intern", "src/trie_ops.rs::collapse_ext_node_if_needed", "src/trie_ops.rs::trie_delete"]}
{"id": "C82", "title": "Which panics can occur", "statement": "Every call that panics does so for one of the reasons listed for that kind of call: insertions of values only where they meet a hash node; insertions of hashes also on keys that are stored or prefixes of these; construction from values never; deletions where they meet a hash node, leave a branch without children, or leave a node with more than 64 nibbles; lookups and subsets only by subtraction overflow with overflow checks; iteration only by its assertion on lengths; hashing, comparison and cloning never. Indices are never out of bounds, no extension over an empty node is ever collapsed, and unreachable code is not reached. Each listed panic occurs.", "quantifier": "all states reached by any program (stale hashes included), all calls with keys of up to 127 nibbles, both trie types, both build profiles; and all whole programs", "why_tests_cant": "That a panic never occurs, in any state, is a universal statement; tests that provoke panics show only that some occur.", "anchors": ["src/trie_ops.rs::insert_into_trie_rec", "src/trie_ops.rs::delete_intern", "src/trie_ops.rs::collapse_ext_node_if_needed", "src/trie_ops.rs::trie_get_intern", "src/trie_subsets.rs::mark_nodes_that_are_needed", "src/nibbles.rs::merge_nibbles"]}
{"id": "C83", "title": "Partial tries with the same root hash do not contradict each other", "statement": "If two partial tries (for instance two proofs for the same state, from different sources) have the same root hash, then unless there is a collision of the hash function at nodes of them: they never give different values for a key, and a value of one is found in the other unless the key leads to a hash node there; the same insertions, if both return, lead to the same root hash; a deletion that returns in both returns the same value and leads to the same root hash, unless a branch of one is collapsed onto a hash node that stands for a leaf or an extension of the other. No full trie is assumed.", "quantifier": "all pairs of reachable tries of either type (full or partial, of any two programs), all keys of up to 127 nibbles, all lists of insertions, both build profiles, every hash function", "why_tests_cant": "The parts that are elided are arbitrary and different in both; the proof builds a trie that both are views of and follows it through all changes.", "anchors": ["src/trie_ops.rs::insert_into_trie_rec", "src/trie_ops.rs::delete_intern", "src/trie_ops.rs::trie_get_intern", "src/trie_hashing.rs::hash_trie", "src/trie_subsets.rs::create_trie_subset"]}
{"id": "C84", "title": "A chain of blocks can be followed with root hashes only", "statement": "Somebody keeps only a root hash. For every block they receive a partial trie from anywhere, check that its root hash is the one kept, read values from it, insert the block's values, and keep the new root hash. If all blocks are accepted in this way, and the first root hash is that of a full trie, then every value that was read is the value of the full trie at that time, all insertions return there as well, and the last root hash is that of the full trie after all insertions; unless some partial trie that was received has a hash collision with the full trie at that time. Conversely, for keys of one length, if every partial trie is the subset for the keys of its block, then all blocks are accepted.", "quantifier": "all full tries, all lists of blocks with all partial tries of any programs and either type, all keys of up to 127 nibbles (conversely: of any one length up to 127), values shorter than 2^64 bytes, both build profiles, every hash function", "why_tests_cant": "The senders are arbitrary and the number of blocks is unbounded; the argument is that every partial trie is a view of the full trie that nobody in the protocol holds.", "anchors": ["src/trie_ops.rs::insert_into_trie_rec", "src/trie_ops.rs::trie_get_intern", "src/trie_hashing.rs::hash_trie", "src/trie_subsets.rs::create_trie_subset"]}
{"id": "C85", "title": "A chain of blocks with lookups, absences and deletions can be followed with root hashes only", "statement": "As C84, with any calls in any order: a value is found, a key is found to be absent, a value is inserted, or a key is deleted. Before accepting an absence, the follower looks whether the key leads to a hash node of the partial trie (without overflow checks also whether the key is as long as the paths of the partial trie); before a deletion, whether it would collapse a branch onto a hash node. If all blocks are accepted, and the first root hash is that of a full trie, then the full trie gives exactly the accepted answers to the same calls, and the last root hash is that of the full trie after all calls; unless some partial trie that was received has a hash collision with the full trie at that time. The checks only look at the partial trie. Conversely, for keys of one length of up to 64 nibbles, if every partial trie is a subset for keys that contain those of its block's calls, and for every deleted key, where all other keys after a part of it go on with one digit, a key that goes on in this way, then all checks succeed and all blocks are accepted.", "quantifier": "all full tries, all lists of blocks with all partial tries of any programs and either type, all lists of calls, all keys of up to 127 nibbles, values shorter than 2^64 bytes, both build profiles, every hash function", "why_tests_cant": "The senders, the calls and the number of blocks are arbitrary; the follower never holds the trie that the claim is about.", "anchors": ["src/trie_ops.rs::insert_into_trie_rec", "src/trie_ops.rs::delete_intern", "src/trie_ops.rs::trie_get_intern", "src/trie_hashing.rs::hash_trie", "src/trie_subsets.rs::create_trie_subset"]}
{"id": "C86", "title": "Tries with 32-byte hashes as keys behave exactly as sorted tables", "statement": "A program over any number of tries, whose keys are made from 32-byte hashes with Nibbles::from_h256_be, returns for every call (new, from_iter, clone, insert, extend, delete, get, hash, items, ==) exactly what a reference of a few lines returns that holds every trie as a list of rows sorted by the bytes of the hashes: get and delete return the row, items returns the rows in order, == compares the lists, hash is the Yellow Paper root of the rows. No call panics.", "quantifier": "all programs of all lengths, all hashes and values, any number of tries, both trie types, both build profiles, every hash function", "why_tests_cant": "The result is an equation with an executable reference for all programs, including all orders of insertions and deletions and all states of the hash caches; there are 2^256 keys.", "anchors": ["src/nibbles.rs::from_h256_be", "src/partial_trie.rs::PartialTrie", "src/trie_ops.rs::insert_into_trie_rec", "src/trie_ops.rs::delete_intern", "src/trie_ops.rs::trie_get_intern", "src/trie_hashing.rs::hash_trie"]}
{"id": "C87", "title": "Tries with RLP-encoded indexes as keys behave exactly as sorted tables", "statement": "Tries of transactions, receipts and withdrawals have the RLP of a 64-bit index as keys, made with Nibbles::from_bytes_be, which never fails on it. Keys then have 2 to 18 nibbles, none is a prefix of another. A program over any number of tries with such keys returns for every call (new, from_iter, clone, insert, extend, delete, get, hash, items, ==) exactly what the reference of C86 returns, with rows sorted by the bytes of the RLP, and no call panics: in builds without overflow checks always; in builds with overflow checks if every lookup is in a trie that has index 0 or no index of 128 or more, as tries have that are filled from index 0 on. Without this condition the lookup of an absent index can panic in builds with overflow checks: a trie with the indexes 256 and 257, and a lookup of index 0.", "quantifier": "all programs of all lengths, all 64-bit indexes, all values, any number of tries, both trie types, both build profiles, every hash function", "why_tests_cant": "The result is an equation with an executable reference for all programs; the panic needs a trie without index 0 and a lookup of a shorter key, which tries made in the usual way never have.", "anchors": ["src/nibbles.rs::from_bytes_be", "src/nibbles.rs::pop_nibbles_front", "src/trie_ops.rs::trie_get_intern", "src/trie_ops.rs::insert_into_trie_rec", "src/trie_ops.rs::delete_intern", "src/trie_hashing.rs::hash_trie"]}
{"id": "C88", "title": "With hashes as keys, subsets are as good as clones for the keys that they were made for", "statement": "A program with 32-byte hashes as keys (as in C86) also calls create_trie_subset, with non-empty key lists, on tries and on subsets. With a subset (and its clones and further subsets) it only does lookups, insertions (also with extend), hashes, clones and further subsets, with the keys that the subset was made for. Then every call returns exactly what it returns if all subsets are replaced by clones, and what the sorted tables of C86 return if a subset is a copy of the whole table; no call panics. In particular the root hash of a subset after insertions is the Yellow Paper root of the full data after the same insertions. Which keys may be used can be told from the program alone, whatever the tries contain.", "quantifier": "all programs of all lengths, all hashes and values, any number of tries, subsets, and subsets of subsets, both trie types, both build profiles, every hash function", "why_tests_cant": "Any number of tries and subsets that share nodes and hash caches are changed in any order; the result is an equation for all programs.", "anchors": ["src/trie_subsets.rs::create_trie_subset", "src/nibbles.rs::from_h256_be", "src/partial_trie.rs::PartialTrie", "src/trie_ops.rs::insert_into_trie_rec", "src/trie_ops.rs::trie_get_intern", "src/trie_hashing.rs::hash_trie"]}
{"id": "C89", "title": "With hashes as keys, deletions with subsets are exact if the sibling that remains was asked for", "statement": "As C88, and a key that the subset was made for may also be deleted from it (or from its clones and further subsets) when: the key is not stored, or, wherever all other rows of the full data after a part of this key go on with one and the same further digit, the subset was made for some key that goes on with this digit. Then every call returns exactly what it returns if all subsets are replaced by clones, and what the sorted tables of C86 return; no call panics. In particular the root hash after the deletion is that of the full data without the row. A subset that was made for all rows meets the condition. Without the condition the root hash can be wrong.", "quantifier": "all programs of all lengths, all hashes and values, any number of tries, subsets, and subsets of subsets, both trie types, both build profiles, every hash function", "why_tests_cant": "Whether a deletion from a subset is exact depends on the shape of the full data, which the subset does not contain; tests see a few shapes.", "anchors": ["src/trie_ops.rs::delete_intern", "src/trie_ops.rs::collapse_ext_node_if_needed", "src/trie_subsets.rs::create_trie_subset", "src/nibbles.rs::from_h256_be", "src/partial_trie.rs::PartialTrie", "src/trie_hashing.rs::hash_trie"]}
{"id": "C90", "title": "Programs that depend on what calls return, such as the update of storage roots in accounts, are exact with subsets", "statement": "As C89, for programs that choose each call by what the calls before it returned (a root hash may be written as part of a value, a lookup may decide which key comes next). If the calls that are made use only the keys that their subsets were made for (deletions as in C89), then they return exactly what they return with clones in place of the subsets, and what sorted tables return; no call panics. In particular, for the accounts of a block: change subsets of the storages of any number of accounts (new values and removals), write each new storage root as part of the value of its account into a subset of the accounts (or remove the account), and the root hash of this subset is the Yellow Paper state root of the full data; removals are as in C89. For all other calls and keys, too, a program that chooses its calls gets what the list of the calls that it makes gets, panics included, so that all properties of lists of calls hold for such programs.", "quantifier": "all programs (functions of what calls return, of any length), all accounts, storages, changes and encodings of accounts, both trie types, both build profiles, every hash function", "why_tests_cant": "The programs are arbitrary functions of earlier results, which include root hashes of other tries; no set of fixed test programs covers them.", "anchors": ["src/trie_subsets.rs::create_trie_subset", "src/partial_trie.rs::PartialTrie", "src/trie_hashing.rs::hash_trie", "src/trie_ops.rs::insert_into_trie_rec", "src/trie_ops.rs::delete_intern", "src/trie_ops.rs::trie_get_intern", "src/nibbles.rs::from_h256_be"]}
{"id": "C91", "title": "Threads that share tries keyed by hashes or indexes, and subsets, see sorted tables", "statement": "Any number of threads share tries whose keys are 32-byte hashes, within Rust's borrow rules; their accesses to hash caches are interleaved in any way. Without subsets: the calls that have ended returned, in the order in which they ended, exactly what the sorted tables of C86 return, and no thread ever panics; the same holds with indexes as keys (C87) in builds without overflow checks. With subsets (for at least one key): the same holds, with a subset as a copy of the whole table, if the calls in the order in which they ended use only the keys that the subsets were made for (deletions as in C89), and a thread in a further such call does not panic.", "quantifier": "all schedules, all numbers of threads, all calls, keys and values, both trie types, both build profiles, every hash function", "why_tests_cant": "All interleavings of reads and writes of shared caches; races are rarely seen in tests.", "anchors": ["src/partial_trie.rs::HashedPartialTrie", "src/partial_trie.rs::PartialTrie", "src/trie_subsets.rs::create_trie_subset", "src/trie_hashing.rs::hash_trie", "src/trie_ops.rs::insert_into_trie_rec", "src/trie_ops.rs::delete_intern", "src/nibbles.rs::from_h256_be"]}
