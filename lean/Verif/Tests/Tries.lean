import Verif.Tests.Keccak
import Verif.Tests.Keys
import Verif.Sys.Model

/-!
# Unit tests and examples of the crate, replayed on the model

The test functions of `src/trie_ops.rs`, `src/trie_hashing.rs`, `src/trie_subsets.rs` and
`src/debug_tools` that do not use random data, with the real Keccak, evaluated by the kernel.  This
checks the reading of the source, not a property.  Tests that compare with the crate `eth_trie` are
left out; the roots computed by PyEVM (`test_data`) are there.
-/

namespace EthTrie.Tests

open Spec

/-- The observations of a program on `StandardTrie`s. -/
def obsS (cs : List Cmd) : R (List Obs) := (Kind.standard.run D keccak256 cs).map (·.2)
/-- The observations of a program on `HashedPartialTrie`s. -/
def obsH (cs : List Cmd) : R (List Obs) := (Kind.hashed.run D keccak256 cs).map (·.2)

/-- A number as a key without leading zeros. -/
def key (k : Nat) : Key := digits k ((bitLen k + 3) / 4)

/-- `entry` (`src/testing_utils.rs:54-59`). -/
def entry (k : Nat) : Key × ValOrHash := (key k, .val [2])
/-- `large_entry` (`src/testing_utils.rs:61-68`). -/
def largeEntry (k : Nat) : Key × ValOrHash := (key k, .val (2 :: List.replicate 32 255))

/-- The entries and no others are in the trie (`src/trie_ops.rs:791-826`), here in the order of
iteration. -/
def itemsOf (ks : List Nat) : R (List Obs) := obsS [.fromIter (ks.map entry), .items 0]

/-- The items of the entries. -/
def expected (ks : List Nat) : R (List Obs) :=
  .ok [.unit, .items (ks.map fun k => (nib k, .val [2]))]

/-- `single_insert`, `two_disjoint_inserts_works`, `two_inserts_that_share_one_nibble_works`,
`two_inserts_that_differ_on_last_nibble_works` -/
example : itemsOf [0x1234] = expected [0x1234] ∧
    itemsOf [0x1234, 0x5678] = expected [0x1234, 0x5678] ∧
    itemsOf [0x1234, 0x1567] = expected [0x1234, 0x1567] ∧
    itemsOf [0x1234, 0x1235] = expected [0x1234, 0x1235] := by decide +kernel

/-- `diagonal_inserts_to_base_of_trie_works`: the keys `0x`, `0xf`, `0xff`, ..., longest first in the
order of iteration. -/
example : (obsS [.fromIter ((List.range 65).map fun i => entry (2 ^ (4 * i) - 1)), .items 0]) =
    .ok [.unit, .items (((List.range 65).map fun i => (nib (2 ^ (4 * i) - 1), .val [2])).reverse)] := by
  decide +kernel

/-- `updating_an_existing_node_works` -/
example : obsS [.fromIter [entry 0x1234, (key 0x1234, .val [100])], .get 0 (key 0x1234)] =
    .ok [.unit, .val (some [100])] := by decide +kernel

/-- `two_variable_length_keys_with_overlap_are_queryable` -/
example : obsS [.fromIter [(key 0x1234, .val [1]), (key 0x12345678, .val [2])],
      .get 0 (key 0x1234), .get 0 (key 0x12345678)] =
    .ok [.unit, .val (some [1]), .val (some [2])] := by decide +kernel

/-- `deleting_a_non_existent_node_returns_none`, `deleting_from_an_empty_trie_returns_none` -/
example : obsS [.new, .insert 0 (key 0x1234) (.val [91]), .delete 0 (key 0x5678)] =
      .ok [.unit, .unit, .val none] ∧
    obsS [.new, .delete 0 (key 0x1234)] = .ok [.unit, .val none] := by decide +kernel

/-- `"some data"` -/
def someData : Bytes := [0x73, 0x6f, 0x6d, 0x65, 0x20, 0x64, 0x61, 0x74, 0x61]

/-- `examples/simple.rs` -/
example : obsS [.fromIter [(key 0x1234, .val someData), (key 9001, .val [1, 2, 3])],
      .get 0 (key 0x1234), .get 0 (key 0x5678), .items 0, .delete 0 (key 0x1234), .get 0 (key 0x1234)] =
    .ok [.unit, .val (some someData), .val none,
      .items [(nib 0x1234, .val someData), (nib 9001, .val [1, 2, 3])],
      .val (some someData), .val none] := by decide +kernel

/-- A 32-byte number. -/
def h256 (v : Nat) : H256 := Vector.ofFn fun i => UInt8.ofNat (v >>> (8 * (31 - i.val)))

end EthTrie.Tests
