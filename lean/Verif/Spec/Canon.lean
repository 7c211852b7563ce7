import Verif.Trie.Model

/-!
# Specification: canonical tries
-/

namespace EthTrie
namespace Trie

variable {α : Type}

/-- The node is not `Empty`. -/
def Occupied : Trie α → Prop
  | .empty _ => False
  | _ => True

/-- The node is a branch or a hash node. -/
def BranchOrHash : Trie α → Prop
  | .branch .. => True
  | .hash .. => True
  | _ => False

/-- Canonical form: extensions are non-empty and lead to a branch or a hash node; a branch has at
least two occupied slots, counting its value. -/
def Canonical : Trie α → Prop
  | .empty _ => True
  | .hash _ _ => True
  | .leaf _ _ _ => True
  | .ext _ n c => n.count ≠ 0 ∧ c.BranchOrHash ∧ Canonical c
  | .branch _ cs v => (∀ i, Canonical (cs i)) ∧
      ((∃ i j, i ≠ j ∧ (cs i).Occupied ∧ (cs j).Occupied) ∨ (v ≠ [] ∧ ∃ i, (cs i).Occupied))

/-- All paths from the root spell at most `b` nibbles. -/
def PathsAtMost : Trie α → Nat → Prop
  | .empty _, _ => True
  | .hash _ _, _ => True
  | .leaf _ n _, b => n.count ≤ b
  | .ext _ n c, b => n.count ≤ b ∧ PathsAtMost c (b - n.count)
  | .branch _ cs _, b => 1 ≤ b ∧ ∀ i, PathsAtMost (cs i) (b - 1)

end Trie
end EthTrie
