import Verif.Debug.Display
import Verif.Serde.Model

/-!
# Model of the derived `Debug` implementations of tries

`Arc` and `Box` are transparent; `RwLock` (crate `parking_lot`) shows its contents (or `<locked>` while
another thread writes, which is not modelled); `{:?}` of a `H256` is `0x` and its bytes in hex, `{:?}` of a
`Vec<u8>` the list of its elements in decimal (library behaviour).
-/

namespace EthTrie

/-- Texts in a list (for `src/partial_trie.rs:117`). -/
def joinTexts : List Text → Text
  | [] => []
  | [a] => a
  | a :: b :: l => a ++ t!", " ++ joinTexts (b :: l)

/-- `{:?}` of a list (for `src/partial_trie.rs:117`). -/
def debugList (l : List Text) : Text := t!"[" ++ joinTexts l ++ t!"]"

/-- `{:?}` of a `Vec<u8>` (`src/partial_trie.rs:117`). -/
def debugBytes (v : Bytes) : Text := debugList (v.map fun b => showNat b.toNat)

/-- `{:?}` of a `H256` (`src/partial_trie.rs:117`). -/
def debugH256 (h : H256) : Text := t!"0x" ++ Nibbles.hexEncode false h.toList

/-- `{:?}` of an `Option<H256>` (`src/partial_trie.rs:287-291`). -/
def debugCell : Option H256 → Text
  | none => t!"None"
  | some h => t!"Some(" ++ debugH256 h ++ t!")"

section
variable {α : Type} (cached : Bool) (P : Profile)

/-- `{:?}` of a `StandardTrie` (`src/partial_trie.rs:196-197`) or `HashedPartialTrie` (`287-291`) whose node
has the given text. -/
def debugWrap (a : α) (node : Text) : Prog α Text :=
  if cached then .read a fun o => .ret (t!"HashedPartialTrie { node: " ++ node ++
    t!", hash: RwLock { data: " ++ debugCell o ++ t!" } }")
  else .ret (t!"StandardTrie(" ++ node ++ t!")")

/-- `{:?}` of a trie (`src/partial_trie.rs:117-146, 196-197, 287-291`). -/
def Trie.debug : Trie α → Prog α Text
  | .empty a => debugWrap cached a t!"Empty"
  | .hash a h => debugWrap cached a (t!"Hash(" ++ debugH256 h ++ t!")")
  | .branch a cs v => (Prog.collect 16 fun i => Trie.debug (cs i)).bind fun ds =>
    debugWrap cached a (t!"Branch { children: " ++ debugList (List.ofFn ds) ++ t!", value: " ++
      debugBytes v ++ t!" }")
  | .ext a n c => (Prog.lift (n.debug P)).bind fun k => (Trie.debug c).bind fun d =>
    debugWrap cached a (t!"Extension { nibbles: " ++ k ++ t!", child: " ++ d ++ t!" }")
  | .leaf a n v => (Prog.lift (n.debug P)).bind fun k =>
    debugWrap cached a (t!"Leaf { nibbles: " ++ k ++ t!", value: " ++ debugBytes v ++ t!" }")

end

end EthTrie
