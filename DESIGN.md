# Formal model of eth_trie_utils in Lean 4

The model lives in `lean/Verif`, namespace `EthTrie`. Every definition of a model file cites the lines of
`/repo` it stands for. Theorems about the properties of `properties.jsonl` are in `lean/Verif/Props`, named
after the property (`C12_...`); `MANIFEST.json` lists them.

## Layers

| part | files | contents |
|------|-------|----------|
| Rust | `Rust.lean` | panics as error values (`R α = Except Panic α`), `usize` arithmetic under a build `Profile` (with overflow checks: panic; without: wrap modulo 2^64), array indexing |
| programs | `Trie/Prog.lean` | every function that touches cache cells is a program (`Prog`) whose atomic steps are: make a cell, read a cell, write a cell. Sequential execution (`Prog.run`) and interleaved execution share one definition |
| keys | `Nibbles/Model.lean` | `src/nibbles.rs` function by function; `U512` is `BitVec 512` |
| tries | `Trie/Model.lean`, `Trie/Iter.lean`, `Trie/IterCatch.lean` (after caught panics), `Trie/Values.lean` | `src/partial_trie.rs`, `src/trie_ops.rs`. One tree type `Trie α`; each node carries what its wrapper stores next to the node: nothing (`StandardTrie`) or the identity of a cache cell (`HashedPartialTrie`) |
| hashing | `Hash/Model.lean` | RLP, `src/trie_hashing.rs`, cache reads and writes. Hashing is a `Prog` too |
| subsets | `Subset/Model.lean` | `src/trie_subsets.rs` |
| debug tools, texts | `Debug/*.lean` | `src/debug_tools/{common,stats,query,diff}.rs`, messages of errors, derived `Debug` of tries |
| serialisation | `Serde/Model.lean` | the derived `Serialize` and `Deserialize` of keys and tries, on data in the data model of `serde` |
| programs | `Sys/Model.lean` | a program is a list of calls (`Cmd`) on any number of tries, for either trie type; `Kind.run` returns every observation or the panic |
| access to nodes | `Sys/Nodes.lean`, `Sys/BuildModel.lean` | programs that also use `Deref`/`DerefMut` and the public fields of nodes: clones of sub-tries, nodes that are put together from new nodes and parts of tries, assignments to nodes |
| caught panics | `Sys/CatchModel.lean` | what is in the tries and in the cells when a call has panicked; programs that catch panics |
| threads | `Conc/Model.lean` | any number of threads hashing tries with shared cells, any schedule |
| threads, all calls | `Conc/Calls.lean` | any number of threads that share handles and make any of the calls of `Sys/Model.lean`; steps are single accesses to cache cells; Rust's borrow rules restrict which calls may run at the same time. `Conc/Sched.lean` executes a given schedule (for examples) |
| specification | `Spec/*.lean` | nibble lists and prefixes, finite maps, the effect of calls on maps, canonical tries, iteration order, RLP and the yellow-paper root, hash-nodes/partial views, lookup paths. Independent of the model's helper functions |
| proofs | `*/Lemmas*.lean`, `Trie/*`, `Subset/*`, `Sys/*`, `Conc/*` | refinement of the packed, annotated tries to tries with list keys (`LNode`), and of those to finite maps |
| reference programs | `Props/Reference.lean`, `Props/Light.lean`, `Props/LightDelete.lean`, `Props/Adaptive.lean`, `Props/Shared.lean` | sorted tables as the meaning of tries with hashes or indexes as keys (C86, C87), of their subsets (C88, C89), for programs that choose calls by results (C90) and for threads (C91). The tables use nothing of the model but the Yellow Paper root and the conversion of keys |
| properties | `Props/*.lean` | the theorems `Cxx_...`, examples that meet their hypotheses, counterexamples |
| cases | `Props/Cases.lean` | decidable forms of the hypotheses, and a reached state (a trie, a changed clone and a subset) that the examples beside the theorems use |

### Which states the theorems are about

* `Live K M P kec s`: `s` is reached by **any** program of calls with keys of at most 127 nibbles, supported or
  not (`K` trie type, `P` build profile, `kec` hash function, `M` cache mode, see C24). The programs may also
  catch panics, look inside tries, put well-formed nodes together, overwrite nodes, read sound tries from data,
  read any data and drop the result, drop tries, and let several threads work at the same time in between
  (`Sys/Live.lean`).
* `Called` (only C24_history and C24_stale, which speak about the past calls): reached by calls that return.
* `Reached`: a `Live` state whose tries are all canonical, followed by calls in which every insertion and deletion
  is `Tame` (`Spec/Program.lean`): a condition on
  the contents that is exactly what is needed to keep tries canonical (`Trie/CleanExact.lean`). In particular
  all *supported* calls (`Supported`), those whose effect on the contents is the intended one, are tame. Programs over fixed-length or prefix-free keys are always supported
  (`Spec/Over.lean`), which is how the theorems about such programs are stated without the notion.
* Several theorems need neither (keys, C26_bare, C36, C38, C39, C40_mask, C45 ...): arbitrary tries.

### Refinement chain

packed annotated `Trie α` —(`RepN`, `Inv`: well-formed keys, fresh cells, cells that hold the hash of their
node)→ `LNode`/`PSys` (list keys, no caches, explicit panics) —(`Trie.contents`, `Canon`)→ finite map of the
specification. `Sys/Refine.lean` proves the first step for every call, `Trie/Abs.lean` and `Sys/Spec.lean` the
second.

## Trusted base

* The Lean 4.33 kernel and the axioms `propext`, `Classical.choice`, `Quot.sound`; no other axiom, no `sorry`,
  no `native_decide`, no `bv_decide`. The table at the end lists the axioms of every property theorem.
  Counterexamples and examples are evaluated by the kernel (`decide +kernel`, or `kernel_rfl` in
  `Verif/KernelRfl.lean`, a tactic that only ever produces `Eq.refl`, which the kernel then checks). Almost all
  counterexamples hold for every hash function: where hashes are compared, they are said to be the hashes of two
  given different strings. C41 and C48, where the code itself compares hashes, use a concrete hash function.
* The reading of the Rust source into the model; the citations are there to check it. The unit tests of the
  crate, replayed on the model, are in `Verif/Tests` (see below).
* External crates are modelled by contract:
  * `uint` 0.9 (through `ethereum_types`): shifts drop bits, shifts by 512 or more give 0, `byte(i)` panics for
    `i >= 64`, `U512::from_str` as described at `u512FromStr`, `to_big_endian` as described in
    `Trie/Values.lean` (asserts the buffer size in builds with debug assertions, then writes words with bounds
    checks). The crate is not part of the repository.
  * `rlp`: standard RLP. `hex`, `bytes`: obvious.
  * Keccak: an arbitrary function `kec : Bytes → H256`. Nothing is assumed about it. Where collision resistance
    matters (C35, C47) the conclusion is "or here is an explicit collision".
* `Arc` is value semantics for nodes (never mutated once shared) but cache cells have identities, so the
  sharing of a cell between clones is visible.
* `usize` has 64 bits. Debug assertions are on exactly when overflow checks are on (the cargo defaults).
* Concurrency: each lock acquisition is one atomic step. The guards are temporaries that are dropped before the
  thread does anything else, so no thread waits for a lock while holding one. Memory is sequentially
  consistent for the cells (they are behind `RwLock`).
* Borrows (C48): while a call with `&mut self` runs no other call uses this handle, while a call with `&self`
  runs no other call mutates this handle; different handles may share cache cells. A call that panics has no
  result and gives its borrow back; only after a panic of `extend` the handle is not used again (C59 is about that).
  `parking_lot` locks are not poisoned by panics, and no code panics while it holds a lock.

* `f32` (C54, C55; `Float/Model.lean`): NaN, infinity or an exact rational; `as f32` from an integer, `/` and `*` are
  the exact results rounded to 24 significant bits, ties to even, denormals and overflow included (IEEE 754).
  `{:.p}` prints the exact value rounded to `p` decimals, ties to even.

* `serde` (C56, C57; `Serde/Model.lean`): what the derived implementations do, field by field: structs are read with
  the fields in any order, unknown fields are skipped, a field that occurs twice or is missing is an error, but a
  missing `hash` is `None`; `Arc`, `Box`, `RwLock` and newtypes are transparent; arrays have exactly 16 elements;
  `H256` and `U512` are read as any 32 bytes or 512 bits. Formats are self-describing (such as JSON).

* New nodes (C61; `Cost/Model.lean`): a node is made where the code calls `N::new`. It is a new `Arc`
  (and a new cache cell for `HashedPartialTrie`). Memory that is freed when a call returns (tracked tries of subsets,
  packed keys) is not counted.
* Work (C60; `Cost/Model.lean`): the work of `hash()` is measured as the number of nodes whose cache cell it reads.
  Every node that is encoded or hashed has been read before. Time per node is not modelled.
* Calls of Keccak (C75; `Cost/HashModel.lean`): counted by functions that follow `encodeNode`, `hash_intern`, `hash()` and the
  subset functions through the same memory states, one for each encoding of at least 32 bytes and one for a short root.

## What is not modelled

* `trace!` logging and the texts of panics. (The texts of keys, paths, diffs, queries, statistics, tries and errors
  are modelled, as lists of characters. The message of `StrToNibblesError` comes from `uint`. `RwLock` prints `<locked>` while it is write-locked:
  the texts are those of programs in which no other thread fills a cell of the trie meanwhile.)
* The textual or binary formats in which serialised data are carried.
* Moving a trie (rather than a clone of it) into a node that is put together by hand: it is the same as cloning it
  and dropping the original, which is modelled.
* Exhaustion of memory or of the stack; lock poisoning.
* `src/testing_utils.rs` (test-only).

## Where the code disagrees with the property

Each is proved with a concrete program or value (`..._false...`); the theorems beside it say what holds instead.

| id | what happens | what is proved instead |
|----|--------------|------------------------|
| C02 | release: indices within 128 of 2^64 wrap around and read a nibble | full statement with overflow checks, and below 2^64-128 without; the result for every index (`C02_exact_release`) |
| C03, C06 | `create_mask_of_1s(512)` panics: range requests over all 128 nibbles of a full `U512` | everything shorter; the result of every request (`C03_exact`, `C03_exact_release`, `C06_exact`) |
| C11 | decoding a leaf-flag encoding appends the nibbles 1,0; decoding an empty string panics | extension flags; exact result for leaf flags; exact errors; the result for every byte string (`C11_exact`) |
| C12 | checked builds: `get` of a key that ends inside an extension panics (subtraction overflow) | fixed-length keys fully; prefix-free keys with the exact panic condition |
| C13 | `get` compares a leaf only up to the shorter key: a proper prefix or an extension of a stored key is "found" | exact result of `get` for every key and state, both profiles |
| C14 | inserting a key that ends inside an extension stores it at the end of the extension | all other insertions; the exact outcome of every insertion on canonical tries |
| C15 | deleting can lose the value of a collapsed branch, panic, delete the value of another key, and return `Some([])` for an absent key | deletions described by `DeleteOK`; the exact outcome of every deletion on canonical tries |
| C17 | delete after insert leaves a different shape or panics for prefix-related keys | incomparable keys, and whenever both calls are supported; an exact condition on the stored keys (`C17_iff`) |
| C23, C24 | `create_trie_subset(&t, [])` caches the root hash in a cell shared with clones of `t`; a clone that was modified before then returns a stale hash | programs that do not clone, or that make no subset for an empty key list; for all other programs, exactly when a cell is stale (`C24_stale`) and that nothing differs before the first read of a stale cell (`C23_first`) |
| C30 | checked builds: absent keys that stop inside an extension panic | exact outcome of each call |
| C32 | flags below the children of the root are not reset between the key lists of a batch | exact: the subset for the list's keys and those earlier keys that lead to the same child of the root as one of them (for an empty list after others: the root alone); result contains the separate subset; equality for the first list and for lists starting with different nibbles |
| C34 | deleting next to a hash node that stands for a leaf/extension collapses the branch without merging | all other deletions; what happens in all cases (`C34_exact`) |
| C40 | absent keys "found", stored keys below extensions "not found", panic for keys that end at a branch | exact output for every key |
| C41 | differences below different extensions are missed; roots of different kinds hit `unreachable!`. The comparison of (kind, key piece) is inverted, so the arms for equal kinds are only entered when the pieces differ | exact outcome for all pairs; no false positives |
| C42 | `U512` always panics, `U128` panics (debug) or is padded at the wrong end (release): the buffer always has 32 bytes | primitive integers and `U256` |
| C43 | an empty value stored in a leaf is returned as `Some([])`, in a branch as `None` | exact condition |
| C44 | release: `get` reads missing nibbles as zeros below an extension and can return the value of another key | exact condition |
| C48 | without its condition on clones and subsets for empty key lists it fails: two threads that make such subsets of a trie and of its changed clone get different hash nodes, although one after the other (in either order) they get the same | C48 carries the condition |
| C52 | a clone of an inner node of a `HashedPartialTrie` shares its cache cell with the node: after the clone is changed, hashing the original stores the old hash in the cell, which the clone then returns | all other uses of sub-tries, in particular wrapping the node with `new` (`C52_partial`); what such a clone returns (`C52_clone`) |
| C53 | overwriting the node of a `HashedPartialTrie` keeps the cache cell: if it was filled (by a subset for no keys), `hash()` returns the hash of the old node | the exact result (`C53_assign`); programs without such subsets (`C53_partial`) |
| C54 | without hash nodes (or leaves) the average is NaN, and comparing with it prints `NaN%` or `inf%`; a trie with 2^24+729 leaves, all at depth 7, has an average leaf depth above 7 | averages up to a relative error of 2^-22 (`C54_average`); correctly rounded and within the depths if sum and count are at most 2^24 (`C54_small_partial`); percentages of node counts |
| C57 | nothing is checked when tries are read: a cached hash in the data is believed (`C57_forged`), leaves with stray bits in the key are different tries with the same hash (`C57_alias`), a key with 130 nibbles makes `hash` panic (`C57_panics`), extensions may lead to leaves (`C57_shape`) | reading never panics and never affects other tries (`C57_total`, `C57_others`); if the trie is well-formed and its cached hashes are right, it is as good as one that was built by calls (`C57_partial`); exactly which data are accepted, and as what, is `C57_exact` |
| C58 | a `HashedPartialTrie` cloned into a child shares the cache cell of its root with the child: hashing the parent fills it, and the trie returns the old hash after it was changed (`C58_false`); a child that is changed in place keeps its cell, and its parents theirs (`C58_inPlace`); nodes are not checked, an extension above a leaf is not equal to the leaf (`C58_shape`) | contents for all nodes (`C58_contents`); well-formed nodes of new wrappers and inner parts of tries are as good as built tries (`C58_build`, `C58_edit`, `C58_fresh`, `C58_partial`) |
| C59 | `extend` empties the cache cell of the trie at the end; if it panics midway and the cell is filled (by a subset for no keys) the entries inserted so far are there but `hash()` returns the old hash, even without clones (`C59_false`) | all other calls leave all tries and all cells that existed as they were (`C59_intact`, `C59_reads`, `C59_subsets`); exactly what `extend` leaves (`C59_extend`, `C59_iterator`); everything proved for `Live` states holds after caught panics; programs that catch panics and make no subset for an empty key list, or neither clone nor extend, give the same results with both trie types (`C59_partial`), all others up to the first read of a stale cell (`C59_first`) |
| C67 | the functions that put pieces of keys together assert at most 64 nibbles, although keys of 65 to 127 can be inserted, found and hashed: `delete` and the iterators can then panic (`C67_delete_panics`, `C67_items_panics`). For example, any 33-byte key accepted by `from_bytes_be` can be inserted and found, but `items()` then panics (`C67_33_bytes`). Theorems about `delete`, `items()` and the comparison of tries therefore ask for keys of at most 64 nibbles where it matters | exactly when they panic (`C67_delete`, `C67_items`), and how many items are returned before (`C68_canonical`) |
| C69 | the message for hex prefix strings that are too long has length and bytes interchanged (`C69_false_tooLong`) and gives 64 bytes as the limit, which is 33 (`C69_false_limit`); the messages of `create_trie_subset` and `create_trie_subsets` do not show the key but what is left of it below the hash node (`C69_false_key`) | the exact messages (`C69_tooLong_partial`, `C69_key_partial`, `C69_keys_partial`); the other messages are right |
| C70 | equal `HashedPartialTrie`s have different `Debug` texts after one of them was hashed (`C70_false`) | equal texts mean equal tries (`C70_partial`); the texts are equal exactly if the tries and the cached hashes are (`C70_injective`) |
| C71 | the hash of received data is not enough: a leaf whose `Nibbles` have bits above the nibbles (2 nibbles, 0x1523) has the hex-prefix encoding, hence the hash, of the leaf with the nibbles 5, 2, 3, but `get` finds it under 2, 3 and not under 5, 2, 3 (`C71_false`); cached hashes in the data are believed (`C71_forged`) | the claim for data with clean `Nibbles` and right caches, of any shape (`C71_partial`, `C71_value_partial`, `C71_standard_partial`); honest senders (`C71_honest`) |
| C72 | `items()` puts a key after its extensions; collecting {1 2, 1 2 3 4, 1 2 3 5} inserts 1 2 last, which is then stored under 1 2 3, and above a hash node the insertion panics (`C72_false`) | the exact condition on the contents (`C72_iff`, `C72_partial`, `C72_prefix_free`); the reverse order works for all canonical tries (`C72_reverse`) |
| C73 | a subset made for the deleted keys is not enough: when one branch of a fork is left and it is a replaced leaf or extension, the root hash is wrong (`C73_false`) | the exact condition on the remaining branches (`C73_partial`, `C73_needed`) |
| C74 | when `next` panics at an extension that leads to a branch beyond 64 nibbles, the extension is already on the stack but its nibbles are not in the key; if the panic is caught they are taken off the key later, and the entries that follow are returned with wrong keys (`C74_false`) | all other caught panics skip the long keys only (`C74_partial`, `C74_canonical_partial`); the calls always come to an end (`C74_ends`) |
| C80 | with 0x1, 0x12 and 0x13 stored, deleting 0x12 and then inserting 0x14 loses the entry 0x1; in the other order it is kept (`C80_false`) | whenever the calls of both orders are supported (`C80_partial`); no key stored or used is a prefix of another (`C80_prefix_free`); keys of one length (`C80_fixed_length`) |
| C81 | with 0x1, 0x12 and 0x13 stored, deleting 0x12 and putting it back loses the entry 0x1 (`C81_false`) | whenever the calls there and back are supported (`C81_partial`); keys of one length (`C81_fixed_length`) |
| C87 | checked builds: in a trie with the indexes 256 and 257 (RLP keys) the lookup of index 0 panics (`C87_false`); the cause is that of C12 | C87 carries the condition: index 0 is there or no index is above 127 (`C87_checked`); builds without overflow checks need none (`C87_release`) |
| C64 | the comment of `large_val` in `examples/hash_nodes.rs` says that sub-tries of `<=` 32 bytes may not be replaced by their hashes | 32 bytes are enough (example beside `C64_build`), 31 are not (`C64_small`) |

## Tests of the theorems

`seeded/LOG.jsonl` records mutation tests: a model definition is edited as a realistic bug would, everything that
depends on it is rebuilt (failing proofs are kept as `sorry` so that later files are still checked) and the
property theorems whose proofs no longer go through are listed. A set of random programs is run on the edited
model and compared with the original to make sure that the edit changes behaviour.
The edits `w01` to `w14` are of the specification instead: a hypothesis of C86 to C91 is dropped or the reference
is changed, and the theorems fail; the random programs do not depend on these definitions.


`Verif/Tests` replays the deterministic unit tests and examples of the crate on the model, with a Lean
implementation of Keccak-256, evaluated by the kernel.  They check the reading of the source; they are not
proofs of properties.  Not replayed: the tests with random data, the comparison with the crate `eth_trie`, and
the doc tests.

## Axioms of the property theorems

Computed with `#print axioms` (`collectAxioms`).

| axioms | theorems |
|---|---|
| Classical.choice, Quot.sound, propext | `C01_constructors_wf`, `C01_eq_iff`, `C01_exists_unique`, `C01_operations_wf`, `C02_exact_release`, `C02_get_nibble`, `C03_exact`, `C03_exact_release`, `C03_pop_one`, `C03_slicing_partial`, `C04_concat`, `C04_push`, `C05_reverse`, `C05_reverse_involutive`, `C06_exact`, `C06_find_differing_idx_equal`, `C06_find_differing_idx_partial`, `C06_identical_up_to_smallest`, `C07_bytes_be`, `C08_byte_padded`, `C08_of_uint`, `C08_of_zero`, `C08_try_into_u256`, `C09_format`, `C09_parse`, `C09_round_trip`, `C10_hex_prefix`, `C10_injective`, `C11_decode_encode_leaf`, `C11_decode_encode_partial`, `C11_errors_partial`, `C11_exact`, `C11_false_leaf`, `C12_false_checked`, `C12_fixed_length`, `C12_prefix_free_partial`, `C12_prefix_free_release`, `C12_supported_call`, `C13_comparable`, `C13_exact_checked`, `C13_exact_release`, `C13_false`, `C13_partial`, `C14_exact`, `C14_false`, `C14_iff`, `C14_partial`, `C15_exact`, `C15_false_absent`, `C15_false_lost`, `C15_false_panic`, `C15_false_prefix`, `C15_iff`, `C15_iff_canonical`, `C15_partial`, `C16_by_length`, `C16_histories`, `C16_order`, `C16_prefixes_first`, `C17_false_panic`, `C17_false_shape`, `C17_iff`, `C17_incomparable`, `C17_partial`, `C18_items`, `C18_items_long`, `C19_items_order`, `C20_onto`, `C20_opaque`, `C21_exists`, `C21_program`, `C21_root`, `C22_contents`, `C23_call`, `C23_false`, `C23_first`, `C23_partial`, `C24_alone`, `C24_cells`, `C24_clone`, `C24_exact`, `C24_false`, `C24_history`, `C24_new`, `C24_partial`, `C24_shares`, `C24_stale`, `C24_wrong`, `C25_after`, `C25_correct`, `C25_finishes`, `C25_progress`, `C25_right`, `C25_terminates`, `C26_live`, `C27_any`, `C27_subset`, `C27_subsets`, `C27_view`, `C28_subset`, `C28_subsets`, `C29_minimal`, `C30_exact`, `C30_false_panic`, `C30_partial`, `C31_idempotent`, `C31_set`, `C32_exact`, `C32_exact_empty`, `C32_exact_forgets`, `C32_false`, `C32_more`, `C32_outcome`, `C32_partial`, `C33_history`, `C33_insert`, `C34_exact`, `C34_false`, `C34_partial`, `C35_commits`, `C35_contents`, `C35_rlp`, `C36_congr`, `C36_iff_contents`, `C36_items`, `C36_items_hash`, `C36_refl`, `C36_symm`, `C36_trans`, `C37_canonical`, `C37_paths`, `C38_frame`, `C38_hash`, `C38_run`, `C39_items`, `C39_stats`, `C39_total`, `C40_exact`, `C40_false_absent`, `C40_false_panic`, `C40_false_stored`, `C40_found`, `C40_mask`, `C40_partial`, `C41_after`, `C41_equal`, `C41_exact`, `C41_false_missed`, `C41_false_panic`, `C41_partial`, `C41_sound`, `C42_expect`, `C42_false_u128_release`, `C42_false_u512`, `C42_prim`, `C42_u256_partial`, `C43_false`, `C43_partial`, `C44_false`, `C44_partial`, `C45_append`, `C45_last_wins`, `C46_length_then_lex`, `C46_total_order`, `C47_absent`, `C47_value`, `C47_view`, `C48_after`, `C48_false`, `C48_linearizable`, `C48_order`, `C48_panics`, `C48_progress`, `C48_waitfree`, `C49_debug`, `C49_debug_injective`, `C49_diff`, `C49_diff_injective`, `C49_none`, `C49_path_injective`, `C49_path_text`, `C49_type`, `C50_default`, `C50_injective`, `C50_text`, `C51_equal`, `C51_subset`, `C51_view`, `C52_clone`, `C52_false`, `C52_fresh`, `C52_handle`, `C52_hash`, `C52_partial`, `C52_step`, `C53_assign`, `C53_false`, `C53_insert`, `C53_partial`, `C54_average`, `C54_comparison`, `C54_false`, `C54_finite`, `C54_percent`, `C54_small_partial`, `C54_view`, `C55_comparison`, `C55_show`, `C55_stats`, `C56_any`, `C56_roundtrip`, `C56_standard`, `C57_alias`, `C57_exact`, `C57_false`, `C57_forged`, `C57_others`, `C57_partial`, `C57_shape`, `C58_build`, `C58_edit`, `C58_false`, `C58_fresh`, `C58_inPlace`, `C58_partial`, `C58_shape`, `C58_total`, `C59_call`, `C59_extend`, `C59_false`, `C59_first`, `C59_hash`, `C59_intact`, `C59_iterator`, `C59_partial`, `C59_reads`, `C59_subsets`, `C60_again`, `C60_clone`, `C60_computed`, `C61_counted`, `C61_made`, `C61_memory`, `C62_new`, `C62_subset`, `C62_subsets`, `C63_depth`, `C63_depth_canonical`, `C63_empty`, `C63_size`, `C64_build`, `C64_build_only`, `C64_iff`, `C64_inside`, `C64_only`, `C64_root`, `C64_small`, `C65_covers`, `C65_only`, `C65_program`, `C65_replay`, `C65_root`, `C65_strand`, `C66_fixed`, `C66_least`, `C66_nest`, `C66_same`, `C67_128`, `C67_33_bytes`, `C67_delete`, `C67_delete_iff`, `C67_delete_panics`, `C67_insert`, `C67_items`, `C67_items_canonical`, `C67_items_panics`, `C68_canonical`, `C68_items`, `C68_next`, `C68_prefix`, `C69_bytes`, `C69_false_key`, `C69_false_limit`, `C69_false_tooLong`, `C69_flags`, `C69_key_partial`, `C69_keys_partial`, `C69_subset`, `C69_subsets`, `C69_tooLong_partial`, `C70_any`, `C70_false`, `C70_injective`, `C70_kinds`, `C70_partial`, `C70_standard`, `C70_total`, `C71_false`, `C71_forged`, `C71_honest`, `C71_partial`, `C71_standard_partial`, `C71_value_partial`, `C72_false`, `C72_iff`, `C72_partial`, `C72_reverse`, `C73_false`, `C73_needed`, `C73_partial`, `C74_canonical_partial`, `C74_ends`, `C74_false`, `C74_first`, `C74_partial`, `C75_keys`, `C75_looked`, `C75_standard`, `C75_total`, `C76_both`, `C76_least`, `C77_contents`, `C78_caught`, `C78_differ`, `C78_ok`, `C78_run`, `C78_same`, `C78_step`, `C78_tools`, `C79_add`, `C79_caught`, `C79_keccak`, `C79_leave_out`, `C79_leave_out_all`, `C80_false`, `C80_fixed_length`, `C80_partial`, `C80_prefix_free`, `C81_false`, `C81_fixed_length`, `C81_partial`, `C82_assertFailed`, `C82_expectFailed`, `C82_hashDelete`, `C82_hashInsert`, `C82_hashOnExisting`, `C82_never`, `C82_only`, `C82_overflow`, `C82_program`, `C83_delete`, `C83_inserts`, `C83_value`, `C83_values`, `C84_chain`, `C84_honest`, `C85_chain`, `C85_honest`, `C85_step`, `C85_steps`, `C86_reference`, `C87_checked`, `C87_false`, `C87_key`, `C87_release`, `C88_clone`, `C88_other`, `C88_reference`, `C89_clone`, `C89_false`, `C89_reference`, `C90_clone`, `C90_lists`, `C90_reference`, `C90_state`, `C91_index`, `C91_panics`, `C91_reference`, `C91_subsets` |
| Quot.sound, propext | `C02_get_nibble_panics`, `C02_get_nibble_panics_release_partial`, `C03_false_full_capacity`, `C03_out_of_range_panics`, `C06_false_full_capacity`, `C07_bytes_round_trip`, `C07_from_bytes_be`, `C07_from_bytes_le`, `C07_h256`, `C08_try_into_u256_panics`, `C11_false_empty`, `C26_bare`, `C45_from_iter`, `C45_single`, `C50_builder`, `C52_contents`, `C56_means`, `C57_missing`, `C57_missing_value`, `C57_nohash`, `C57_optional`, `C57_panics`, `C57_total`, `C58_child`, `C58_contents`, `C60_cached`, `C60_once`, `C67_short`, `C78_keys` |
| propext | `C02_false_release`, `C42_false_u128_checked`, `C48_terminates`, `C57_missing_both`, `C72_prefix_free` |
| none | `C42_bytes` |
