import Verif.Trie.Model

/-!
# Specification: the nodes of a trie with their depths
-/

namespace EthTrie

variable {α : Type}

/-- Kinds of nodes. -/
inductive NodeType where
  | empty | hash | branch | ext | leaf
  deriving DecidableEq, Repr

/-- The kind of a node. -/
def Trie.type : Trie α → NodeType
  | .empty _ => .empty
  | .hash _ _ => .hash
  | .branch _ _ _ => .branch
  | .ext _ _ _ => .ext
  | .leaf _ _ _ => .leaf

/-- All nodes of a trie whose root has depth `d`, each with its depth. -/
def Trie.nodes : Trie α → Nat → List (Trie α × Nat)
  | .branch a cs v, d => (.branch a cs v, d) ::
      ((List.finRange 16).map fun i => (cs i).nodes (d + 1)).flatten
  | .ext a n c, d => (.ext a n c, d) :: c.nodes (d + 1)
  | .empty a, d => [(.empty a, d)]
  | .hash a h, d => [(.hash a h, d)]
  | .leaf a n v, d => [(.leaf a n v, d)]

/-- The depths of the nodes of some kind in a list of nodes. -/
def depthsOf (L : List (Trie α × Nat)) (ty : NodeType) : List Nat :=
  (L.filter fun x => x.1.type = ty).map (·.2)

/-- The number of nodes of some kind. -/
def Trie.count (t : Trie α) (ty : NodeType) : Nat := (depthsOf (t.nodes 0) ty).length

/-- Is the node a branch with a value? -/
def Trie.branchValue : Trie α → Bool
  | .branch _ _ v => !v.isEmpty
  | _ => false

end EthTrie
