import Verif.Spec.View
import Verif.Spec.YP

/-!
# Specification: the RLP of a node of a trie, collisions

These definitions are used to state that root hashes commit to tries.
-/

namespace EthTrie
namespace Trie

open Spec

variable {α β : Type}

/-- An encoded node within its parent: itself if it is short, or else the RLP of its hash. -/
def elide (kec : Bytes → H256) (r : Bytes) : Bytes := if r.length < 32 then r else rlpStr (kec r).toList

/-- The RLP of a node within its parent (yellow paper, appendix D, for a given trie). -/
def childRlp (kec : Bytes → H256) : Trie α → Bytes
  | .empty _ => rlpStr []
  | .hash _ h => rlpStr h.toList
  | .branch _ cs v =>
    elide kec (rlpSeq ((List.finRange 16).map (fun i => childRlp kec (cs i)) ++ [rlpStr v]))
  | .ext _ n c => elide kec (rlpSeq [rlpStr (HP n.toList false), childRlp kec c])
  | .leaf _ n v => elide kec (rlpSeq [rlpStr (HP n.toList true), rlpStr v])

/-- The RLP of a node.  A hash node stands for an elided node, whose RLP is not known; the RLP of the
hash is used. -/
def rlp (kec : Bytes → H256) : Trie α → Bytes
  | .empty _ => rlpStr []
  | .hash _ h => rlpStr h.toList
  | .branch _ cs v => rlpSeq ((List.finRange 16).map (fun i => childRlp kec (cs i)) ++ [rlpStr v])
  | .ext _ n c => rlpSeq [rlpStr (HP n.toList false), childRlp kec c]
  | .leaf _ n v => rlpSeq [rlpStr (HP n.toList true), rlpStr v]

/-- Is the node a hash node? -/
def IsHash : Trie α → Prop
  | .hash _ _ => True
  | _ => False

/-- `Collide kec t u`: nodes of `t` and `u` at the same position, no hash nodes, have different RLPs with
the same hash. -/
def Collide (kec : Bytes → H256) (t : Trie α) (u : Trie β) : Prop :=
  ∃ q x y, t.NodeAt q x ∧ u.NodeAt q y ∧ ¬ x.IsHash ∧ ¬ y.IsHash ∧ x.rlp kec ≠ y.rlp kec ∧
    kec (x.rlp kec) = kec (y.rlp kec)

/-- The trie has no hash nodes. -/
def NoHash (t : Trie α) : Prop := ∀ q u, t.NodeAt q u → ¬ u.IsHash

/-- The values are shorter than `2 ^ 64` bytes. -/
def SmallValues : Trie α → Prop
  | .empty _ => True
  | .hash _ _ => True
  | .branch _ cs v => v.length < 2 ^ 64 ∧ ∀ i, SmallValues (cs i)
  | .ext _ _ c => SmallValues c
  | .leaf _ _ v => v.length < 2 ^ 64

end Trie
end EthTrie
