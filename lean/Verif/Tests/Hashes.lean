import Verif.Tests.Tries

/-!
# Root hashes computed by PyEVM, replayed on the model with the real Keccak
-/

namespace EthTrie.Tests

/-- `empty_hash_is_correct`: `KECCAK_NULL_RLP`. -/
example : obsH [.new, .hash 0] =
    .ok [.unit, .root (h256 0x56e81f171bcc55a6ff8345e692c0f86e5b48e01b996cadc001622fb5e363b421)] := by
  decide +kernel

/-- Bytes of a number without leading zeros. -/
def minBytes (v : Nat) : Bytes := (List.range ((bitLen v + 7) / 8)).reverse.map fun i =>
  UInt8.ofNat (v >>> (8 * i))

/-- The first account of `test_data/pyevm_account_ground_truth.json`: address, nonce, balance, storage
root, code hash and the state root after inserting it.  (Evaluated with compiled code, the model gives
the roots of the file after each of the first 100 accounts; in the kernel this takes too long.) -/
def accounts : List (Nat × Nat × Nat × Nat × Nat × Nat) := [
  (0x7baa9455e3e70682c2094cac629f6fbed82c07cd, 8963783824838420066, 0x85776e9add84f39e71545a137a1d50068d723104f77383c13458a748e9bb17bc, 0x5a0845adaffd4fab96b1f8b2cf3013aa31d2dad4bb8dec71751384b3fd18428e, 0x821a2699c57ebebb8d416a70f85818072a6d01be61aee6c8c56dfa5b16b67dd8,
    0x0be948e98266cb91b8cfc3a1eae6537bf7660902b8b14a993c21b01afdbd7822)]

/-- Key and value of an account (`src/trie_hashing.rs:127-192`). -/
def accountEntry (a : Nat × Nat × Nat × Nat × Nat × Nat) : Key × ValOrHash :=
  let (addr, nonce, balance, storage, code, _) := a
  (Nibbles.toList (Nibbles.fromH256BE (keccak256 ((h256 addr).toList.drop 12))),
    .val (rlpList [rlpValue (minBytes nonce), rlpValue (minBytes balance),
      rlpValue (h256 storage).toList, rlpValue (h256 code).toList]))

/-- `single_account_leaf_hash_is_correct`: the root hash after inserting the account is the one computed
by PyEVM. -/
example : obsH (.new :: accounts.flatMap fun a =>
      [.insert 0 (accountEntry a).1 (accountEntry a).2, .hash 0]) =
    .ok (.unit :: accounts.flatMap fun a => [.unit, .root (h256 a.2.2.2.2.2)]) := by
  decide +kernel

/-- `large_val` (`examples/hash_nodes.rs:99-101`). -/
def largeVal (b : UInt8) : ValOrHash := .val (b :: List.replicate 32 255)

/-- `examples/hash_nodes.rs`: a sub-trie replaced by its hash gives the same root hash. -/
def hashNodes : Bool := (match Kind.hashed.run D keccak256 [.fromIter [([0, 0], largeVal 1), ([0, 1], largeVal 2),
      ([1, 0], largeVal 3), ([1, 1], largeVal 4)], .hash 0] with
    | .ok (⟨st, [.branch _ cs _]⟩, [_, .root full]) =>
      match (cs 0).rootHash D keccak256 st with
      | .ok (left, _) =>
        decide (obsH [.fromIter [([0], .hash left), ([1, 0], largeVal 3), ([1, 1], largeVal 4)],
          .hash 0] = .ok [.unit, .root full])
      | .error _ => false
    | _ => false)

example : hashNodes = true := by decide +kernel

end EthTrie.Tests
