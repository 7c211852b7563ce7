import Verif.Trie.Model
import Verif.Spec.Nodes

/-!
# Model of `src/debug_tools/common.rs`

`TrieNodeType` (`src/utils.rs:8-34`) is `NodeType`, and the conversion from nodes is `Trie.type`.
`Display` implementations are in `Verif.Debug.Display`.
-/

namespace EthTrie

/-- `enum PathSegment` (`src/debug_tools/common.rs:9-16`). -/
inductive PathSegment where
  | empty
  | hash
  | branch (n : Nibble)
  | ext (n : Nibbles)
  | leaf (n : Nibbles)
  deriving DecidableEq, Repr

/-- `node_type` (`src/debug_tools/common.rs:31-39`). -/
def PathSegment.type : PathSegment → NodeType
  | .empty => .empty
  | .hash => .hash
  | .branch _ => .branch
  | .ext _ => .ext
  | .leaf _ => .leaf

/-- `get_key_piece_from_seg_if_present` (`src/debug_tools/common.rs:41-46`). -/
def PathSegment.keyPiece : PathSegment → R (Option Nibbles)
  | .empty => .ok none
  | .hash => .ok none
  | .branch n => do return some (← Nibbles.fromNibble n)
  | .ext n => .ok (some n)
  | .leaf n => .ok (some n)

section
variable {α : Type} (P : Profile)

/-- `get_segment_from_node_and_key_piece` (`src/debug_tools/common.rs:50-61`). -/
def segmentOf (t : Trie α) (piece : Nibbles) : R PathSegment :=
  match t.type with
  | .empty => .ok .empty
  | .hash => .ok .hash
  | .branch => do return .branch (← piece.getNibble P 0)
  | .ext => .ok (.ext piece)
  | .leaf => .ok (.leaf piece)

/-- `get_key_piece_from_node_pulling_from_key_for_branches` (`src/debug_tools/common.rs:70-79`). -/
def pieceOrNext (t : Trie α) (key : Nibbles) : R Nibbles :=
  match t with
  | .empty _ => .ok .default
  | .hash _ _ => .ok .default
  | .branch _ _ _ => key.getNextNibbles P 1
  | .ext _ n _ => .ok n
  | .leaf _ n _ => .ok n

/-- `get_key_piece_from_node` (`src/debug_tools/common.rs:83-88`). -/
def pieceOf (t : Trie α) : Nibbles :=
  match t with
  | .empty _ => .default
  | .hash _ _ => .default
  | .branch _ _ _ => .default
  | .ext _ n _ => n
  | .leaf _ n _ => n

end

end EthTrie
