import Verif.Tests.Tries
import Verif.Debug.Stats
import Verif.Debug.Diff

/-!
# Unit tests of subsets and debug tools, replayed on the model with the real Keccak
-/

namespace EthTrie.Tests

/-- Is the second observation from the end equal to the last? -/
def lastTwoEqual (r : R (List Obs)) : Bool :=
  match r with
  | .ok os => match os.reverse with
    | a :: b :: _ => a == b
    | _ => false
  | .error _ => false

/-- `hash_of_single_leaf_trie_partial_trie_matches_original_trie` -/
example : lastTwoEqual (obsH [.new, .insert 0 (key 0x1234) (.val [0]), .subset 0 [key 0x1234], .hash 0,
    .hash 1]) = true := by decide +kernel

/-- `hash_of_branch_partial_tries_matches_original_trie` -/
example : ([[0x1234], [0x56], [0x2], [0x1234, 0x12345], [0x1234, 0x56, 0x12345]] : List (List Nat)).all
    (fun ks => lastTwoEqual (obsH [.fromIter ([0x1234, 0x56, 0x12345].map largeEntry),
      .subset 0 (ks.map key), .hash 0, .hash 1])) = true := by decide +kernel

/-- `empty_trie_does_not_return_err_on_query`, `non_existent_key_does_not_return_err`,
`encountering_a_hash_node_returns_err`, `single_node_trie_is_queryable` -/
example : obsH [.new, .subset 0 [key 0x1234]] = .ok [.unit, .unit] ∧
    obsH [.fromIter [(key 0x1234, .val [0, 1, 2])], .subset 0 [key 0x5678]] = .ok [.unit, .unit] ∧
    obsH [.fromIter [([], .hash (h256 0))], .subset 0 [key 0x1234]] =
      .ok [.unit, .err (.unexpectedKey (nib 0x1234))] ∧
    obsH [.fromIter [(key 0x1234, .val [0, 1, 2])], .subset 0 [key 0x1234], .eq 0 1] =
      .ok [.unit, .unit, .bool true] := by decide +kernel

/-- `multi_node_trie_returns_proper_subset`: `0x1234` and `0x56` are in the subset, `0x12345` is not. -/
example : (match obsH [.fromIter ([0x1234, 0x56, 0x12345].map largeEntry),
      .subset 0 [key 0x1234, key 0x56], .items 1] with
    | .ok [_, _, .items xs] => xs.filterMap fun x => match x.2 with
      | .val _ => some x.1
      | .hash _ => none
    | _ => []) = [nib 0x1234, nib 0x56] := by decide +kernel

/-- `handmade_trie_1` (`src/testing_utils.rs:202-223`). -/
def handmade : List (Key × ValOrHash) := [0x1234, 0x1324, 0x132400005, 0x2001, 0x2002].map largeEntry

/-- The non-empty nodes that are not hash nodes, with their types and positions
(`src/trie_subsets.rs:388-424`). -/
def nodesOf {α : Type} (at' : Key) : Trie α → List (NodeType × Key)
  | .empty _ => []
  | .hash _ _ => []
  | .branch _ cs _ =>
    (.branch, at') :: (List.finRange 16).flatMap fun i => nodesOf (at' ++ [i]) (cs i)
  | .ext _ n c => (.ext, at') :: nodesOf (at' ++ n.toList) c
  | .leaf _ n _ => [(.leaf, at' ++ n.toList)]

/-- The nodes of a handle after a program. -/
def nodesAfter (cs : List Cmd) (i : Nat) : List (NodeType × Key) :=
  match Kind.hashed.run D keccak256 cs with
  | .ok (s, _) => match s.hs[i]? with
    | some t => nodesOf [] t
    | none => []
  | .error _ => []

/-- `intermediate_nodes_are_included_in_subset` -/
example : nodesAfter [.fromIter handmade, .subset 0 (handmade.map Prod.fst)] 1 =
      [(.branch, []), (.branch, key 0x1), (.leaf, key 0x1234), (.ext, key 0x13), (.branch, key 0x1324),
       (.leaf, key 0x132400005), (.ext, key 0x2), (.branch, key 0x200), (.leaf, key 0x2001),
       (.leaf, key 0x2002)] ∧
    nodesAfter [.fromIter handmade, .subset 0 [key 0x2001]] 1 =
      [(.branch, []), (.ext, key 0x2), (.branch, key 0x200), (.leaf, key 0x2001)] ∧
    nodesAfter [.fromIter handmade, .subset 0 [key 0x1324]] 1 =
      [(.branch, []), (.branch, key 0x1), (.ext, key 0x13), (.branch, key 0x1324)] := by decide +kernel

/-- `hand_made_trie_has_correct_node_stats` -/
def handmadeStats : R NodeCounts :=
  match Kind.hashed.run D keccak256 [.fromIter handmade] with
  | .ok (⟨_, [t]⟩, _) => (trieStats D t none).map TrieStats.counts
  | _ => .error .overflow

example : handmadeStats = .ok ⟨57, 0, 4, 2, 4⟩ := by decide +kernel

/-- `depth_single_node_hash_diffs_work` -/
def singleNodeDiff : Bool :=
  match Kind.hashed.run D keccak256 [.new, .insert 0 (key 0x1234) (.val [0]), .hash 0, .clone 0,
    .insert 1 (key 0x1234) (.val [1]), .hash 1] with
  | .ok (⟨st, [a, b]⟩, [_, _, .root ah, _, _, .root bh]) =>
    match a.diff D keccak256 b st with
    | .ok (r, _) => decide (r = some
        ⟨0, [], .default, ⟨nib 0x1234, some [0], .leaf, ah⟩, ⟨nib 0x1234, some [1], .leaf, bh⟩⟩)
    | .error _ => false
  | _ => false

example : singleNodeDiff = true := by decide +kernel

end EthTrie.Tests
