import Verif.Debug.Common

/-!
# Model of `src/debug_tools/query.rs`

`DebugQueryParams` only influence `Display`; both are in `Verif.Debug.Display`.
-/

namespace EthTrie

/-- `enum ExtraNodeSegmentInfo` (`src/debug_tools/query.rs:96-101`). -/
inductive ExtraInfo where
  | hash (h : H256)
  | branch (mask : BitVec 16)
  | leaf (v : Bytes)
  deriving DecidableEq

section
variable {α : Type}

/-- `matches!(child.as_ref(), Node::Empty)` (`src/debug_tools/query.rs:137`) -/
def Trie.isEmptyNode : Trie α → Bool
  | .empty _ => true
  | _ => false

/-- `create_child_mask_from_children` (`src/debug_tools/query.rs:133-143`). -/
def childMask (cs : Fin 16 → Trie α) : BitVec 16 :=
  (List.finRange 16).foldl (fun m i =>
    if !(cs i).isEmptyNode then m ||| (1#16 <<< i.val) else m) 0#16

/-- `count_non_empty_branch_children_from_mask` (`src/debug_tools/query.rs:145-153`). -/
def countMask (mask : BitVec 16) : Nat :=
  (List.finRange 16).foldl (fun n i => n + if mask &&& (1#16 <<< i.val) > 0#16 then 1 else 0) 0

/-- `ExtraNodeSegmentInfo::from_node` (`src/debug_tools/query.rs:119-131`). -/
def extraInfo : Trie α → Option ExtraInfo
  | .empty _ => none
  | .ext _ _ _ => none
  | .hash _ h => some (.hash h)
  | .branch _ cs _ => some (.branch (childMask cs))
  | .leaf _ _ v => some (.leaf v)

/-- The fields of `DebugQueryOutput` that the search changes (`src/debug_tools/query.rs:155-162`). -/
structure QueryOut where
  path : List PathSegment
  extra : List (Option ExtraInfo)
  found : Bool
  deriving DecidableEq

/-- `get_next_nibbles_from_node_key_clamped` (`src/debug_tools/query.rs:306-309`). -/
def nextClamped (P : Profile) (key : Nibbles) (n : Nat) : R Nibbles :=
  key.getNextNibbles P (min n key.count)

/-- `get_path_from_query_rec` (`src/debug_tools/query.rs:265-302`): the new values of `curr_key` and
`query_out`.  (In the `Extension` case the nibbles are looked at but not removed from the key.) -/
def queryRec (P : Profile) : Trie α → Nibbles → QueryOut → R (Nibbles × QueryOut)
  | t, key, out => do
    let piece ← pieceOrNext P t key
    let seg ← segmentOf P t piece
    let out := { out with path := out.path ++ [seg], extra := out.extra ++ [extraInfo t] }
    let (key, out) ← match t with
      | .empty _ => pure (key, out)
      | .hash _ _ => pure (key, out)
      | .branch _ cs _ => do
        let (nib, key) ← key.popNextFront P
        let i ← idx16 nib
        queryRec P (cs i) key out
      | .ext _ n c => do
        let _ ← nextClamped P key n.count
        queryRec P c key out
      | .leaf _ n _ => do
        let next ← nextClamped P key n.count
        if n == next then do
          let (_, key) ← key.popNibblesFront P next.count
          pure (key, out)
        else pure (key, out)
    if key.isEmpty then return (key, { out with found := true }) else return (key, out)

/-- `get_path_from_query` (`src/debug_tools/query.rs:253-263`). -/
def query (P : Profile) (t : Trie α) (k : Nibbles) : R QueryOut := do
  let (_, out) ← queryRec P t k ⟨[], [], false⟩
  return out

end
end EthTrie
