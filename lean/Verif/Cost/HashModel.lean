import Verif.Cost.Model

/-!
# How many times a program calls Keccak

`keccak_hash::keccak` is called in two places (`src/trie_hashing.rs:19-26, 78-83, 92-94`): for the encoding of a
node that has at least 32 bytes, and for the root of a trie when its encoding is shorter.  The counts here
follow the functions of `Verif/Hash/Model.lean` and `Verif/Subset/Model.lean` through the memory states
they pass, up to the end or to a panic.
-/

namespace EthTrie

section
variable {α S : Type} [K : TrieKind α S] (P : Profile) (kec : Bytes → H256)

/-- Add up what programs that run one after the other count, up to the first that panics. -/
def Prog.along {ι β : Type} (p : ι → Prog α β) (f : ι → S → Nat) : List ι → S → Nat
  | [], _ => 0
  | i :: l, s => f i s + match (p i).run s with
    | .ok (_, s') => along p f l s'
    | .error _ => 0

/-- The call for the encoding of a node itself: there is one if the encoding is long
(`hash_bytes_if_large_enough`, `src/trie_hashing.rs:78-83`). -/
def ownKeccak (t : Trie α) (s : S) : Nat :=
  match (encodeNode P kec t).run s with
  | .ok (.hashed _, _) => 1
  | _ => 0

/-- The calls of `rlp_encode_and_hash_node` (`src/trie_hashing.rs:36-76`), with those of `hash_intern` for
the children (`src/partial_trie.rs:254-258, 372-387`), which makes none if the cell is full. -/
def Trie.encKeccaks : Trie α → S → Nat
  | .empty _, _ => 0
  | .hash _ _, _ => 0
  | .branch a cs v, s =>
    Prog.along (fun i => hashIntern P kec (cs i)) (fun i s => match K.cacheGet (cs i).ann s with
      | some _ => 0
      | none => (cs i).encKeccaks s) (List.finRange 16) s + ownKeccak P kec (.branch a cs v) s
  | .ext a n c, s => match n.toHexPrefixEncoding P false with
    | .error _ => 0
    | .ok _ => (match K.cacheGet c.ann s with
      | some _ => 0
      | none => c.encKeccaks s) + ownKeccak P kec (.ext a n c) s
  | .leaf a n v, s => ownKeccak P kec (.leaf a n v) s

/-- The calls of `hash_intern` (`src/partial_trie.rs:254-258, 372-387`). -/
def Trie.internKeccaks (t : Trie α) (s : S) : Nat :=
  match K.cacheGet t.ann s with
  | some _ => 0
  | none => t.encKeccaks P kec s

/-- The calls of `hash()` (`src/partial_trie.rs:237-239, 297-304, 355-357`, `src/trie_hashing.rs:19-34`). -/
def Trie.rootKeccaks (t : Trie α) (s : S) : Nat :=
  match K.cacheGet t.ann s with
  | some _ => 0
  | none => t.encKeccaks P kec s + match (encodeNode P kec t).run s with
    | .ok (.raw _, _) => 1
    | _ => 0

/-- The calls of the case distinction at the start of `create_partial_trie_subset_from_tracked_trie`
(`src/trie_subsets.rs:301-309`). -/
def awayKeccaks (t : Tracked α) (s : S) : Nat :=
  if t.touched then 0 else t.u.internKeccaks P kec s

/-- The calls of `create_partial_trie_subset_from_tracked_trie` (`src/trie_subsets.rs:298-330`). -/
def Tracked.keccaks : Tracked α → S → Nat
  | .branch u b cs, s => awayKeccaks P kec (.branch u b cs) s +
    match (hashAway P kec (.branch u b cs)).run s, getBranchValueExpected u with
    | .ok (none, s'), .ok _ => Prog.along (fun i => createSubset P kec (cs i))
        (fun i s => (cs i).keccaks s) (List.finRange 16) s'
    | _, _ => 0
  | .ext u b c, s => awayKeccaks P kec (.ext u b c) s +
    match (hashAway P kec (.ext u b c)).run s, getNibblesExpected u with
    | .ok (none, s'), .ok _ => c.keccaks s'
    | _, _ => 0
  | t, s => awayKeccaks P kec t s

/-- The calls of the loop of `create_trie_subsets` (`src/trie_subsets.rs:234-242`). -/
def subsetsKeccaks (tr : Tracked α) : List (List Nibbles) → S → Nat
  | [], _ => 0
  | ks :: kss, s => match markAll P tr ks with
    | .ok (.ok tr') => tr'.keccaks P kec s + match (createSubset P kec tr').run s with
      | .ok (_, s') => subsetsKeccaks (resetTracked tr') kss s'
      | .error _ => 0
    | _ => 0

/-- How many times a call of a program calls Keccak.  Only hashing does
(`src/partial_trie.rs:237-258, 297-304, 355-357, 372-387`, `src/trie_subsets.rs:212-258`). -/
def Sys.keccaks (s : Sys α S) : Cmd → Nat
  | .hash i => match s.hs[i]? with
    | none => 0
    | some t => t.rootKeccaks P kec s.state
  | .subset i ks => match s.hs[i]? with
    | none => 0
    | some t => match markAll P (Tracked.new t) (ks.map Nibbles.ofList) with
      | .ok (.ok tr) => tr.keccaks P kec s.state
      | _ => 0
  | .subsets i kss => match s.hs[i]? with
    | none => 0
    | some t => subsetsKeccaks P kec (Tracked.new t) (kss.map fun ks => ks.map Nibbles.ofList) s.state
  | _ => 0

/-- Add up a number over the calls of a program that catches its panics (`Sys.runC`). -/
def Sys.total (f : Sys α S → Cmd → Nat) (s : Sys α S) : List Cmd → Nat
  | [] => 0
  | c :: cs => f s c + (s.execC P kec c).1.total f cs

end

end EthTrie
