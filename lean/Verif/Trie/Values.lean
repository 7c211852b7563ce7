import Verif.Hash.Model

/-!
# Model of the conversions into `ValOrHash` (`src/trie_ops.rs:46-120`)

`ethereum_types` 0.14 (crate `uint` 0.9) is not part of the repository; `to_big_endian` is modelled
as it is implemented there: it asserts (in builds with debug assertions, identified here with builds
with overflow checks) that the buffer has the size of the number, and then writes the 64-bit words of
the number one after the other at offsets 0, 8, ..., each write being bounds-checked.
-/

namespace EthTrie

/-- The `k` bytes of `n`, most significant first: `to_be_bytes` of a `k`-byte primitive integer
(`src/trie_ops.rs:74`). -/
def toBeBytes (k : Nat) (n : Nat) : Bytes :=
  match k with
  | 0 => []
  | k + 1 => toBeBytes k (n / 256) ++ [UInt8.ofNat (n % 256)]

/-- `impl_prim_int_from_for_val_variant!` (`src/trie_ops.rs:70-79`) for an integer of `k` bytes. -/
def valOfPrim (k : Nat) (v : Nat) : ValOrHash := .val (toBeBytes k v)

/-- `BigEndian::write_u64(&mut bytes[pos..], w)` (for `src/trie_ops.rs:63`). -/
def writeU64 (buf : Bytes) (pos : Nat) (w : Nat) : R Bytes :=
  if pos + 8 ≤ buf.length then .ok (buf.take pos ++ toBeBytes 8 w ++ buf.drop (pos + 8))
  else .error .indexOutOfBounds

/-- The loop of `to_big_endian`: the words with indices below `m` (of `n`) remain to be written
(for `src/trie_ops.rs:63`). -/
def writeWords (n : Nat) (v : Nat) : Nat → Bytes → R Bytes
  | 0, buf => .ok buf
  | m + 1, buf => do
    let buf ← writeU64 buf (8 * (n - (m + 1))) (v / 2 ^ (64 * m) % 2 ^ 64)
    writeWords n v m buf

/-- `to_big_endian(&mut buf)` of a number of `n` 64-bit words (`src/trie_ops.rs:63`). -/
def toBigEndian (P : Profile) (n : Nat) (v : Nat) (buf : Bytes) : R Bytes := do
  if P.overflowChecks then rassert (8 * n == buf.length)
  writeWords n v n buf

/-- `impl_eth_type_from_for_val_variant!` (`src/trie_ops.rs:55-68`) for a number of `n` 64-bit words:
the buffer always has 32 bytes (`buf.resize(32, 0)`; `size` is only its initial capacity). -/
def valOfEth (P : Profile) (n : Nat) (v : Nat) : R ValOrHash := do
  let buf ← toBigEndian P n v (List.replicate 32 0)
  return .val buf

/-- `From<Vec<u8>>` and `From<&[u8]>` (`src/trie_ops.rs:81-91`). -/
def valOfBytes (b : Bytes) : ValOrHash := .val b

/-- `From<H256>` (`src/trie_ops.rs:93-97`). -/
def valOfHash (h : H256) : ValOrHash := .hash h

/-- `expect_hash` (`src/trie_ops.rs:110-113`). -/
def ValOrHash.expectHash : ValOrHash → R H256
  | .hash h => .ok h
  | .val _ => .error .expectFailed

end EthTrie
