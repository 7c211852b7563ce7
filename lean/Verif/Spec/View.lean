import Verif.Trie.Plain
import Verif.Hash.Model

/-!
# Specification: nodes of a trie, and partial views

These definitions are used to state properties of subsets and of partial tries.
-/

namespace EthTrie
namespace Trie

variable {α β : Type}

/-- `t.NodeAt q u`: the node `u` of `t` is reached by the nibbles `q`. -/
inductive NodeAt : Trie α → Key → Trie α → Prop
  | here (t : Trie α) : NodeAt t [] t
  | branch (a : α) (cs : Fin 16 → Trie α) (v : Bytes) (d : Fin 16) (q : Key) (u : Trie α)
      (h : NodeAt (cs d) q u) : NodeAt (.branch a cs v) (d :: q) u
  | ext (a : α) (n : Nibbles) (c : Trie α) (q : Key) (u : Trie α) (h : NodeAt c q u) :
      NodeAt (.ext a n c) (n.toList ++ q) u

/-- How a sub-trie is encoded in its parent, computed without caches. -/
def refer (P : Profile) (kec : Bytes → H256) (t : Trie α) : R EncodedNode :=
  ((hashIntern P kec t.bare).run ()).map (·.1)

/-- `ViewOf P kec p t`: `p` is `t` with some sub-tries, whose encodings have at least 32 bytes,
replaced by hash nodes with their hashes. -/
inductive ViewOf (P : Profile) (kec : Bytes → H256) : Trie α → Trie β → Prop
  | away (a : α) (h : H256) (t : Trie β) (he : t.refer P kec = .ok (.hashed h)) :
      ViewOf P kec (.hash a h) t
  | empty (a : α) (b : β) : ViewOf P kec (.empty a) (.empty b)
  | branch (a : α) (b : β) (ps : Fin 16 → Trie α) (cs : Fin 16 → Trie β) (v : Bytes)
      (h : ∀ i, ViewOf P kec (ps i) (cs i)) : ViewOf P kec (.branch a ps v) (.branch b cs v)
  | ext (a : α) (b : β) (n : Nibbles) (p : Trie α) (c : Trie β) (h : ViewOf P kec p c) :
      ViewOf P kec (.ext a n p) (.ext b n c)
  | leaf (a : α) (b : β) (n : Nibbles) (v : Bytes) : ViewOf P kec (.leaf a n v) (.leaf b n v)

/-- Is the node a leaf or an extension? -/
def LeafOrExt : Trie α → Prop
  | .leaf _ _ _ => True
  | .ext _ _ _ => True
  | _ => False

/-- Deleting `k` from `p` collapses a branch onto a hash node that stands for a leaf or an extension
of `t`: the key leads to a leaf in a branch of `p` with exactly one other child, and this child is
such a hash node. -/
def Strands (p : Trie α) (t : Trie β) (k : Key) : Prop :=
  ∃ q d j r a cs v b x u c n w, k = q ++ d :: r ∧ p.NodeAt q (.branch a cs v) ∧ j ≠ d ∧
    (∀ l, (∀ b, cs l ≠ .empty b) → l = d ∨ l = j) ∧ cs d = .leaf c n w ∧ n.toList = r ∧
    cs j = .hash b x ∧ t.NodeAt (q ++ [j]) u ∧ u.LeafOrExt

end Trie
end EthTrie
