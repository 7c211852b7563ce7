import Verif.Trie.Model

/-!
# Model of `src/trie_hashing.rs` and of hashing in `src/partial_trie.rs`

Keccak is a parameter `kec : Bytes → H256`.  The parts of the `rlp` crate that are used
(`RlpStream::new_list`, `append`, `append_raw`, `append_empty_data`, `out`) are modelled by their
contract: a list is a header followed by the concatenation of the encodings of its items.

Hashing is a program whose atomic steps are the reads and writes of cache cells (each under its own
`RwLock` acquisition), so the same definition is used for sequential and for concurrent execution.
-/

namespace EthTrie

open Nibbles

/-- The big-endian bytes of a length without leading zeros (`rlp` crate, length of a length)
(used by `src/trie_hashing.rs:43-72`). -/
def rlpLenBytes (n : Nat) : Bytes :=
  if _h : n < 256 then [UInt8.ofNat n] else rlpLenBytes (n / 256) ++ [UInt8.ofNat (n % 256)]
  termination_by n
  decreasing_by omega

/-- The header of a string (`off = 0x80`) or list (`off = 0xc0`) with a payload of `len` bytes
(used by `src/trie_hashing.rs:43-72`). -/
def rlpHeader (off : Nat) (len : Nat) : Bytes :=
  if len < 56 then [UInt8.ofNat (off + len)]
  else
    let lb := rlpLenBytes len
    UInt8.ofNat (off + 55 + lb.length) :: lb

/-- `RlpStream::append` of a byte string (`encode_value`) (`src/trie_hashing.rs:50, 59, 68-69`). -/
def rlpValue (bs : Bytes) : Bytes :=
  match bs with
  | [b] => if b.toNat < 0x80 then [b] else rlpHeader 0x80 1 ++ [b]
  | _ => rlpHeader 0x80 bs.length ++ bs

/-- `RlpStream::new_list(n)` with the given `n` encoded items, then `out()` (`src/trie_hashing.rs:43-72`). -/
def rlpList (items : List Bytes) : Bytes :=
  let payload := items.flatten
  rlpHeader 0xc0 payload.length ++ payload

/-- `enum EncodedNode` (`src/trie_hashing.rs:11-18`). -/
inductive EncodedNode where
  | raw (b : Bytes)
  | hashed (h : H256)
  deriving DecidableEq

/-- `hash_bytes_if_large_enough` (`src/trie_hashing.rs:78-83`). -/
def hashIfLarge (kec : Bytes → H256) (bs : Bytes) : EncodedNode :=
  match decide (bs.length ≥ 32) with
  | false => .raw bs
  | true => .hashed (kec bs)

/-- `append_to_stream` (`src/trie_hashing.rs:85-90`): the bytes appended for a child. -/
def EncodedNode.item : EncodedNode → Bytes
  | .raw b => b
  | .hashed h => rlpValue h.toList

/-- `From<&EncodedNode> for H256` (`src/trie_hashing.rs:20-27`). -/
def EncodedNode.toH256 (kec : Bytes → H256) : EncodedNode → H256
  | .raw b => kec b
  | .hashed h => h

section
variable {α : Type} (P : Profile) (kec : Bytes → H256)

/-- The wrapper that `hash_intern` puts around the encoding of a node with cache cell `a`
(`src/partial_trie.rs:254-258, 372-387`).  For `StandardTrie`, whose cells are always empty and
ignore writes, this is just the encoding. -/
def cached (a : α) (enc : Prog α EncodedNode) : Prog α EncodedNode :=
  .read a fun
    | some h => .ret (.hashed h)
    | none => enc.bind fun
      | .hashed h => .write a (some h) (.ret (.hashed h))
      | .raw b => .ret (.raw b)

/-- `rlp_encode_and_hash_node` (`src/trie_hashing.rs:36-76`). -/
def encodeNode : Trie α → Prog α EncodedNode
  | .empty _ => .ret (.raw [0x80])
  | .hash _ h => .ret (.hashed h)
  | .branch _ children value =>
    (Prog.seq ((List.finRange 16).map fun i =>
      cached (children i).ann (encodeNode (children i)))).bind fun es =>
    let v := match value.isEmpty with
      | false => rlpValue value
      | true => [0x80]
    .ret (hashIfLarge kec (rlpList (es.map EncodedNode.item ++ [v])))
  | .ext _ nibbles child =>
    (Prog.lift (nibbles.toHexPrefixEncoding P false)).bind fun hp =>
    (cached child.ann (encodeNode child)).bind fun e =>
    .ret (hashIfLarge kec (rlpList [rlpValue hp, e.item]))
  | .leaf _ nibbles value =>
    (Prog.lift (nibbles.toHexPrefixEncoding P true)).bind fun hp =>
    .ret (hashIfLarge kec (rlpList [rlpValue hp, rlpValue value]))

/-- `hash_intern` (`src/partial_trie.rs:254-258, 372-387`). -/
def hashIntern (t : Trie α) : Prog α EncodedNode := cached t.ann (encodeNode P kec t)

/-- `hash_trie` (`src/trie_hashing.rs:31-34`). -/
def hashTrie (t : Trie α) : Prog α H256 :=
  (encodeNode P kec t).bind fun e => .ret (e.toH256 kec)

/-- `hash()` / `get_hash` (`src/partial_trie.rs:237-239, 297-304, 355-357`). -/
def hashProg (t : Trie α) : Prog α H256 :=
  .read t.ann fun
    | some h => .ret h
    | none => hashTrie P kec t

/-- `PartialTrie::hash` (`src/partial_trie.rs:96, 237-239, 355-357`). -/
abbrev Trie.rootHash (t : Trie α) : Prog α H256 := hashProg P kec t

end

end EthTrie
