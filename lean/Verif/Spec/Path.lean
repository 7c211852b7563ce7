import Verif.Debug.Query
import Verif.Trie.Plain

/-!
# Specification: lookup paths
-/

namespace EthTrie

variable {α : Type}

/-- `t.Lookup k xs u r`: looking up the nibbles `k` in `t` visits the nodes described by `xs`, root
first, with the key pieces that belong to them, and ends at the node `u` where the nibbles `r` are
left.  It ends at an empty node, a hash node or a leaf, or at an extension that disagrees with the
key.  (There is no key piece for a branch at which the key ends; such lookups are not described.) -/
inductive Trie.Lookup : Trie α → Key → List (Trie α × PathSegment) → Trie α → Key → Prop
  | empty (a : α) (k : Key) : Lookup (.empty a) k [(.empty a, .empty)] (.empty a) k
  | hash (a : α) (h : H256) (k : Key) : Lookup (.hash a h) k [(.hash a h, .hash)] (.hash a h) k
  | leaf (a : α) (n : Nibbles) (v : Bytes) (k : Key) :
      Lookup (.leaf a n v) k [(.leaf a n v, .leaf n)] (.leaf a n v) k
  | branch (a : α) (cs : Fin 16 → Trie α) (v : Bytes) (d : Fin 16) (k : Key)
      (xs : List (Trie α × PathSegment)) (u : Trie α) (r : Key) (h : Lookup (cs d) k xs u r) :
      Lookup (.branch a cs v) (d :: k) ((.branch a cs v, .branch d.val) :: xs) u r
  | ext (a : α) (n : Nibbles) (c : Trie α) (k : Key) (xs : List (Trie α × PathSegment)) (u : Trie α)
      (r : Key) (h : Lookup c k xs u r) :
      Lookup (.ext a n c) (n.toList ++ k) ((.ext a n c, .ext n) :: xs) u r
  | away (a : α) (n : Nibbles) (c : Trie α) (k : Key) (h : ¬ n.toList <+: k) :
      Lookup (.ext a n c) k [(.ext a n c, .ext n)] (.ext a n c) k

/-- `t.Tour k xs u r`: like `Lookup`, except that the nibbles of an extension are neither compared
with the key nor consumed. -/
inductive Trie.Tour : Trie α → Key → List (Trie α × PathSegment) → Trie α → Key → Prop
  | empty (a : α) (k : Key) : Tour (.empty a) k [(.empty a, .empty)] (.empty a) k
  | hash (a : α) (h : H256) (k : Key) : Tour (.hash a h) k [(.hash a h, .hash)] (.hash a h) k
  | leaf (a : α) (n : Nibbles) (v : Bytes) (k : Key) :
      Tour (.leaf a n v) k [(.leaf a n v, .leaf n)] (.leaf a n v) k
  | branch (a : α) (cs : Fin 16 → Trie α) (v : Bytes) (d : Fin 16) (k : Key)
      (xs : List (Trie α × PathSegment)) (u : Trie α) (r : Key) (h : Tour (cs d) k xs u r) :
      Tour (.branch a cs v) (d :: k) ((.branch a cs v, .branch d.val) :: xs) u r
  | ext (a : α) (n : Nibbles) (c : Trie α) (k : Key) (xs : List (Trie α × PathSegment)) (u : Trie α)
      (r : Key) (h : Tour c k xs u r) :
      Tour (.ext a n c) k ((.ext a n c, .ext n) :: xs) u r

/-- Is the node empty? -/
def Trie.IsEmptyNode : Trie α → Prop
  | .empty _ => True
  | _ => False

/-- What the additional information about a node says. -/
def ExtraInfo.Describes : Option ExtraInfo → Trie α → Prop
  | none, .empty _ => True
  | none, .ext _ _ _ => True
  | some (.hash h), .hash _ h' => h = h'
  | some (.leaf v), .leaf _ _ v' => v = v'
  | some (.branch m), .branch _ cs _ => ∀ i : Fin 16, m.getLsbD i.val = true ↔ ¬ (cs i).IsEmptyNode
  | _, _ => False

end EthTrie
