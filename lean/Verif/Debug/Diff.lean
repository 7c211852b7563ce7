import Verif.Debug.Common
import Verif.Hash.Model

/-!
# Model of `src/debug_tools/diff.rs`

The code only handles `HashedPartialTrie`; the model is generic in the kind of trie, like the model of
hashing.  Like hashing it is a program whose atomic steps are the accesses to cache cells.  `Display`
implementations are in `Verif.Debug.Display`.
-/

namespace EthTrie

/-- `struct NodeInfo` (`src/debug_tools/diff.rs:118-128`). -/
structure NodeInfo where
  key : Nibbles
  value : Option Bytes
  type : NodeType
  hash : H256
  deriving DecidableEq

/-- `struct DiffPoint` (`src/debug_tools/diff.rs:77-85`). -/
structure DiffPoint where
  depth : Nat
  path : List PathSegment
  key : Nibbles
  a : NodeInfo
  b : NodeInfo
  deriving DecidableEq

/-- `enum DiffDetectionState` (`src/debug_tools/diff.rs:56-61`). -/
inductive DiffState where
  | nodeTypesDiffer
  | hashDiff
  | noDiff
  deriving DecidableEq

/-- `get_int_repr` (`src/debug_tools/diff.rs:71-74`). -/
def DiffState.int : DiffState → Nat
  | .nodeTypesDiffer => 0
  | .hashDiff => 1
  | .noDiff => 2

/-- `pick_most_significant_state` (`src/debug_tools/diff.rs:64-69`). -/
def DiffState.pick (x y : DiffState) : DiffState :=
  match decide (x.int > y.int) with
  | false => y
  | true => x

/-- `struct DepthNodeDiffState` (`src/debug_tools/diff.rs:185-189`). -/
structure Longest where
  node : Option DiffPoint
  hash : Option DiffPoint

/-- `struct DepthDiffPerCallState` (`src/debug_tools/diff.rs:228-238`) without the two nodes. -/
structure CallState where
  key : Nibbles
  depth : Nat
  path : List PathSegment

section
variable {α : Type} (P : Profile) (kec : Bytes → H256)

/-- `get_value_from_node` (`src/debug_tools/diff.rs:395-402`). -/
def nodeValue : Trie α → Option Bytes
  | .empty _ => none
  | .hash _ _ => none
  | .ext _ _ _ => none
  | .branch _ _ v => some v
  | .leaf _ _ v => some v

/-- `NodeInfo::new` (`src/debug_tools/diff.rs:145-154`). -/
def nodeInfo (n : Trie α) (key : Nibbles) : Prog α NodeInfo :=
  (hashProg P kec n).bind fun h => .ret ⟨key, nodeValue n, n.type, h⟩

/-- `DiffPoint::new` (`src/debug_tools/diff.rs:87-105`). -/
def diffPoint (a b : Trie α) (parent : Nibbles) (path : List PathSegment) : Prog α DiffPoint :=
  (Prog.lift (parent.mergeNibbles P (pieceOf a))).bind fun ak =>
  (Prog.lift (parent.mergeNibbles P (pieceOf b))).bind fun bk =>
  (nodeInfo P kec a ak).bind fun ai =>
  (nodeInfo P kec b bk).bind fun bi =>
  .ret ⟨0, path, parent, ai, bi⟩

/-- `replace_longest_field_if_our_key_is_larger` (`src/debug_tools/diff.rs:212-225`): the new value
of the field. -/
def replaceLonger (field : Option DiffPoint) (a b : Trie α) (st : CallState) :
    Prog α (Option DiffPoint) :=
  match field with
  | none => (diffPoint P kec a b st.key st.path).bind fun d => .ret (some d)
  | some d0 =>
    if d0.key.count < st.key.count then
      (diffPoint P kec a b st.key st.path).bind fun d => .ret (some d)
    else .ret (some d0)

/-- `new_from_parent` (`src/debug_tools/diff.rs:258-276`), called on a state with first node `a`. -/
def fromParent (st : CallState) (a : Trie α) (piece : Nibbles) : R CallState := do
  let seg ← segmentOf P a piece
  return ⟨← st.key.mergeNibbles P piece, ← uadd P st.depth 1, st.path ++ [seg]⟩

/-- `create_diff_detection_state_based_from_hashes` (`src/debug_tools/diff.rs:380-393`). -/
def diffOfHashes (ah bh : H256) (a b : Trie α) (st : CallState) (ds : Longest) :
    Prog α (DiffState × Longest) :=
  match decide (ah = bh) with
  | false => (replaceLonger P kec ds.hash a b st).bind fun h => .ret (.hashDiff, { ds with hash := h })
  | true => .ret (.noDiff, ds)

/-- `create_diff_detection_state_based_from_hash_and_gen_hashes`
(`src/debug_tools/diff.rs:370-378`). -/
def diffOfHash (a b : Trie α) (st : CallState) (ds : Longest) : Prog α (DiffState × Longest) :=
  (hashProg P kec a).bind fun ah =>
  (hashProg P kec b).bind fun bh =>
  diffOfHashes P kec ah bh a b st ds

/-- The loop over the children of two branches (`src/debug_tools/diff.rs:322-337`). -/
def diffChildren (f : Fin 16 → Longest → Prog α (DiffState × Longest)) :
    List (Fin 16) → DiffState → Longest → Prog α (DiffState × Longest)
  | [], m, ds => .ret (m, ds)
  | i :: is, m, ds => (f i ds).bind fun r => diffChildren f is (m.pick r.1) r.2

/-- The first part of `find_latest_diff_point_between_tries_rec`
(`src/debug_tools/diff.rs:279-302`); `other` is the last `else`. -/
def diffTop (a b : Trie α) (st : CallState) (ds : Longest) (other : Prog α (DiffState × Longest)) :
    Prog α (DiffState × Longest) :=
  (hashProg P kec a).bind fun ah =>
  (hashProg P kec b).bind fun bh =>
  if ah = bh then .ret (.noDiff, ds)
  else if (a.type, pieceOf a) = (b.type, pieceOf b) then
    (replaceLonger P kec ds.node a b st).bind fun n => .ret (.nodeTypesDiffer, { ds with node := n })
  else other

/-- `find_latest_diff_point_between_tries_rec` (`src/debug_tools/diff.rs:279-368`). -/
def diffRec : Trie α → Trie α → CallState → Longest → Prog α (DiffState × Longest)
  | .empty x, b, st, ds => diffTop P kec (.empty x) b st ds <| match b with
    | .empty _ => .ret (.noDiff, ds)
    | _ => .panic .unreachableCode
  | .hash x ah, b, st, ds => diffTop P kec (.hash x ah) b st ds <| match b with
    | .hash y bh =>
      (Prog.lift (fromParent P st (.hash x ah) .default)).bind fun st' =>
      diffOfHashes P kec ah bh (.hash x ah) (.hash y bh) st' ds
    | _ => .panic .unreachableCode
  | .branch x acs v, b, st, ds => diffTop P kec (.branch x acs v) b st ds <| match b with
    | .branch y bcs w =>
      (diffChildren (fun i ds =>
        (Prog.lift (Nibbles.fromNibble i.val)).bind fun piece =>
        (Prog.lift (fromParent P st (.branch x acs v) piece)).bind fun st' =>
        diffRec (acs i) (bcs i) st' ds) (List.finRange 16) .noDiff ds).bind fun r =>
      if r.1 = .noDiff then .ret r
      else diffOfHash P kec (.branch x acs v) (.branch y bcs w) st r.2
    | _ => .panic .unreachableCode
  | .ext x n ac, b, st, ds => diffTop P kec (.ext x n ac) b st ds <| match b with
    | .ext _ _ bc =>
      (Prog.lift (fromParent P st (.ext x n ac) n)).bind fun st' =>
      diffRec ac bc st' ds
    | _ => .panic .unreachableCode
  | .leaf x n v, b, st, ds => diffTop P kec (.leaf x n v) b st ds <| match b with
    | .leaf y m w => diffOfHash P kec (.leaf x n v) (.leaf y m w) st ds
    | _ => .panic .unreachableCode

/-- `create_diff_between_tries` and `find_latest_diff_point_between_tries`
(`src/debug_tools/diff.rs:158-183`). -/
def diffProg (a b : Trie α) : Prog α (Option DiffPoint) :=
  (diffRec P kec a b ⟨.default, 0, []⟩ ⟨none, none⟩).bind fun r => .ret (r.2.node.or r.2.hash)

/-- `create_diff_between_tries` (`src/debug_tools/diff.rs:158`). -/
abbrev Trie.diff (a b : Trie α) : Prog α (Option DiffPoint) := diffProg P kec a b

end
end EthTrie
