import Verif.Debug.Query
import Verif.Debug.Diff

/-!
# Model of the `Display` implementations of the debug tools

A text is a list of characters.  Writing to a `Formatter` is modelled as returning the text; write
errors of the underlying sink are not modelled.  `{}` of an integer is its decimal representation,
`{:x}` of a `H256` its bytes in hex (library behaviour), `hex::encode` is `hexEncode false`.
The statistics are in `Debug/StatsShow.lean`.
-/

namespace EthTrie

/-- A text. -/
abbrev Text := List Char

/-- `t!"abc"` is the text `['a', 'b', 'c']`. -/
syntax:max "t!" noWs str : term

macro_rules
  | `(t!$s:str) => do
    let cs : Array (Lean.TSyntax `term) :=
      (s.getString.toList.map fun c => ⟨Lean.Syntax.mkCharLit c⟩).toArray
    `(([$cs,*] : Text))

/-- `{}` of an unsigned integer (as in `src/debug_tools/query.rs:109`). -/
def showNat (n : Nat) : Text := Nat.toDigits 10 n

/-- `{}` of a `bool`. -/
def showBool : Bool → Text
  | true => t!"true"
  | false => t!"false"

/-- `Display for TrieNodeType` (`src/utils.rs:36-48`). -/
def NodeType.show : NodeType → Text
  | .empty => t!"Empty"
  | .hash => t!"Hash"
  | .branch => t!"Branch"
  | .ext => t!"Extension"
  | .leaf => t!"Leaf"

section
variable (P : Profile)

/-- `Display for Nibbles`, `{}` and `{:x}` (`src/nibbles.rs:159-164, 196-200`). -/
def Nibbles.show (n : Nibbles) : R Text := n.asHexStr P false

/-- `Debug for Nibbles` (`src/nibbles.rs:167-174`), without `#`. -/
def Nibbles.debug (n : Nibbles) : R Text := do
  return t!"Nibbles { count: " ++ showNat n.count ++ t!", packed: \"" ++ (← n.show P) ++
    t!"\" }"

/-- `try_into_u256` (`src/nibbles.rs:756-764`).  The message of the `Err` contains the `Debug` text
of the key, whose computation may panic; the inner `unwrap` panics if the packed value does not fit
256 bits. -/
def Nibbles.tryIntoU256 (n : Nibbles) : R (Except Text (BitVec 256)) :=
  match decide (n.count ≤ 64) with
  | false => do
    return .error (t!"Tried getting a U256 from Nibbles that were too big! (" ++ (← n.debug P) ++
      t!")")
  | true =>
    if n.packed.toNat < 2 ^ 256 then .ok (.ok (BitVec.ofNat 256 n.packed.toNat))
    else .error .expectFailed

/-- `Display for PathSegment` (`src/debug_tools/common.rs:18-28`). -/
def PathSegment.show : PathSegment → R Text
  | .empty => .ok t!"Empty"
  | .hash => .ok t!"Hash"
  | .branch n => .ok (t!"Branch(" ++ showNat n ++ t!")")
  | .ext n => do return t!"Extension(" ++ (← n.show P) ++ t!")"
  | .leaf n => do return t!"Leaf(" ++ (← n.show P) ++ t!")"

/-- The loop over all but the last element in `Display for NodePath`
(`src/debug_tools/common.rs:115-118`). -/
def showSegs : List PathSegment → R Text
  | [] => .ok []
  | s :: r => do return (← s.show P) ++ t!" --> " ++ (← showSegs r)

/-- `Display for NodePath` (`src/debug_tools/common.rs:110-127`). -/
def showPath (path : List PathSegment) : R Text := do
  let a ← showSegs P (path.take (path.length - 1))
  match path.getLast? with
  | some s => return a ++ (← s.show P)
  | none => return a

/-- `Display for NodeInfo` (`src/debug_tools/diff.rs:131-143`). -/
def NodeInfo.show (i : NodeInfo) : R Text := do
  let k ← i.key.show P
  let v := match i.value with
    | some v => t!"Value: 0x" ++ Nibbles.hexEncode false v ++ t!", "
    | none => t!"Value: N/A, "
  return t!"(key: " ++ k ++ t!" " ++ v ++ t!"Node type: " ++ i.type.show ++
    t!" " ++ t!"Trie hash: " ++ Nibbles.hexEncode false i.hash.toList ++ t!")"

/-- `Display for DiffPoint` (`src/debug_tools/diff.rs:108-116`). -/
def DiffPoint.show (d : DiffPoint) : R Text := do
  let p ← showPath P d.path
  let k ← d.key.show P
  let a ← d.a.show P
  let b ← d.b.show P
  return t!"Point Diff {depth: " ++ showNat d.depth ++ t!", " ++
    t!"Path: (" ++ p ++ t!"), " ++ t!"Key: " ++ k ++ t!" " ++
    t!"A info: " ++ a ++ t!" " ++ t!"B info: " ++ b ++ t!"}"

/-- `Display for TrieDiff` (`src/debug_tools/diff.rs:46-54`). -/
def showDiff : Option DiffPoint → R Text
  | some d => d.show P
  | none => .ok []

/-- `{:#018b}` of a `u16`: `0b` and 16 binary digits (`src/debug_tools/query.rs:109`). -/
def showMask (m : BitVec 16) : Text :=
  t!"0b" ++ (List.finRange 16).map fun i => if m.getLsbD (15 - i.val) then '1' else '0'

/-- `Display for ExtraNodeSegmentInfo` (`src/debug_tools/query.rs:103-116`). -/
def ExtraInfo.show : ExtraInfo → Text
  | .hash h => t!"Hash: " ++ Nibbles.hexEncode false h.toList
  | .branch m => t!"mask: " ++ showMask m ++ t!" (Num Children: " ++ showNat (countMask m) ++
      t!")"
  | .leaf v => t!"Leaf Value: " ++ Nibbles.hexEncode false v

/-- `struct DebugQueryParams` (`src/debug_tools/query.rs:22-34`). -/
structure QueryParams where
  keyPiece : Bool
  nodeType : Bool
  specific : Bool
  deriving DecidableEq

/-- `Default for DebugQueryParams` (`src/debug_tools/query.rs:36-44`), and of the builder. -/
def QueryParams.default : QueryParams := ⟨true, true, false⟩

/-- `print_key_pieces` (`src/debug_tools/query.rs:52-56`). -/
def QueryParams.printKeyPieces (p : QueryParams) (enabled : Bool) : QueryParams :=
  { p with keyPiece := enabled }

/-- `print_node_type` (`src/debug_tools/query.rs:58-62`). -/
def QueryParams.printNodeType (p : QueryParams) (enabled : Bool) : QueryParams :=
  { p with nodeType := enabled }

/-- `print_node_specific_values` (`src/debug_tools/query.rs:64-68`). -/
def QueryParams.printSpecific (p : QueryParams) (enabled : Bool) : QueryParams :=
  { p with specific := enabled }

/-- `struct DebugQuery` (`src/debug_tools/query.rs:78-83`). -/
structure DebugQuery where
  k : Nibbles
  params : QueryParams

/-- `DebugQueryParamsBuilder::build` (`src/debug_tools/query.rs:70-75`). -/
def QueryParams.build (p : QueryParams) (k : Nibbles) : DebugQuery := ⟨k, p⟩

/-- `From<Nibbles> for DebugQuery` (`src/debug_tools/query.rs:85-92`). -/
def DebugQuery.ofKey (k : Nibbles) : DebugQuery := ⟨k, .default⟩

/-- `struct DebugQueryOutput` (`src/debug_tools/query.rs:155-162`). -/
structure QueryOutput where
  k : Nibbles
  out : QueryOut
  params : QueryParams

/-- `get_path_from_query` (`src/debug_tools/query.rs:252-263`). -/
def getPathFromQuery {α : Type} (t : Trie α) (q : DebugQuery) : R QueryOutput := do
  return ⟨q.k, ← query P t q.k, q.params⟩

/-- `fmt_query_header` (`src/debug_tools/query.rs:205-213`). -/
def showHeader (o : QueryOutput) : R Text := do
  return t!"Query Result {\n" ++ t!"Queried Key: " ++ (← o.k.show P) ++ t!"\n" ++
    t!"Node found: " ++ showBool o.out.found ++ t!"\n" ++ t!"}\n"

/-- The part about the key piece in `fmt_node_based_on_debug_params`
(`src/debug_tools/query.rs:231-235`). -/
def showPiece (p : QueryParams) (s : PathSegment) : R Text :=
  if p.keyPiece then do
    match ← s.keyPiece with
    | some n => return t!"key: " ++ (← n.show P)
    | none => return []
  else .ok []

/-- The part about the other information in `fmt_node_based_on_debug_params`
(`src/debug_tools/query.rs:237-245`). -/
def showExtra (p : QueryParams) (e : Option ExtraInfo) : Text :=
  if p.specific then
    match e with
    | some e => (if p.keyPiece then t!", " else []) ++ t!"Extra Seg Info: " ++ e.show
    | none => []
  else []

/-- `fmt_node_based_on_debug_params` (`src/debug_tools/query.rs:216-250`). -/
def showNode (p : QueryParams) (s : PathSegment) (e : Option ExtraInfo) : R Text := do
  return (if p.nodeType then s.type.show else []) ++ t!"(" ++ (← showPiece P p s) ++
    showExtra p e ++ t!")"

/-- `extra_node_info[i]`; panics if out of range (`src/debug_tools/query.rs:176, 185`). -/
def extraAt (es : List (Option ExtraInfo)) (i : Nat) : R (Option ExtraInfo) :=
  match es[i]? with
  | some e => .ok e
  | none => .error .indexOutOfBounds

/-- The loop over all but the last node in `Display for DebugQueryOutput`
(`src/debug_tools/query.rs:169-179`), from index `i` on. -/
def showNodes (p : QueryParams) (es : List (Option ExtraInfo)) : List PathSegment → Nat → R Text
  | [], _ => .ok []
  | s :: r, i => do
    return (← showNode P p s (← extraAt es i)) ++ t!"\n" ++ t!"V\n" ++
      (← showNodes p es r (i + 1))

/-- `Display for DebugQueryOutput` (`src/debug_tools/query.rs:164-192`). -/
def QueryOutput.show (o : QueryOutput) : R Text := do
  let h ← showHeader P o
  let path := o.out.path
  let a ← showNodes P o.params o.out.extra (path.take (← usub P path.length 1)) 0
  let b ← match path.getLast? with
    | some s => do showNode P o.params s (← extraAt o.out.extra (← usub P path.length 1))
    | none => .ok []
  return h ++ t!"Query path:\n" ++ a ++ b

end
end EthTrie
