import Verif.Trie.LNode
import Verif.Spec.Map
import Verif.Nibbles.Lemmas
import Verif.Trie.Abs

/-!
# Reading a trie of the model

`Trie.plain` forgets the cache cells and unpacks the keys.  `Trie.contents` is what is stored in a
trie.  These functions are used to state properties of the tries that programs reach.
-/

namespace EthTrie

open Nibbles

namespace Trie

variable {α : Type}

/-- The trie without cache cells and with keys as lists of nibbles. -/
def plain : Trie α → LNode
  | .empty _ => .empty
  | .hash _ h => .hash h
  | .branch _ cs v => .branch (fun i => plain (cs i)) v
  | .ext _ n c => .ext n.toList (plain c)
  | .leaf _ n v => .leaf n.toList v

/-- The entries stored in a trie: the key of an entry is the sequence of nibbles on the path to it;
the empty value of a branch means that there is none. -/
def contents (t : Trie α) : KMap := t.plain.absL

/-- The trie without cache cells, as a `StandardTrie`. -/
def bare : Trie α → Trie Unit
  | .empty _ => .empty ()
  | .hash _ h => .hash () h
  | .branch _ cs v => .branch () (fun i => bare (cs i)) v
  | .ext _ n c => .ext () n (bare c)
  | .leaf _ n v => .leaf () n v

end Trie
end EthTrie
