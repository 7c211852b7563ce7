import Verif.Spec.Loaded

/-!
# Tries that were received from somebody else

What the receiver of a trie can check by looking at it.
-/

namespace EthTrie
namespace Trie
variable {α : Type}

/-- All `Nibbles` have at most 128 nibbles, and zeros above them. -/
def KeysClean : Trie α → Prop
  | .empty _ => True
  | .hash _ _ => True
  | .branch _ cs _ => ∀ i, (cs i).KeysClean
  | .ext _ n c => n.packed.toNat < 16 ^ n.count ∧ n.count ≤ 128 ∧ c.KeysClean
  | .leaf _ n _ => n.packed.toNat < 16 ^ n.count ∧ n.count ≤ 128

/-- The caches that are filled contain what they should. -/
def CachesRight (K : Kind) (P : Profile) (kec : Bytes → H256) (s : K.State) (t : Trie K.Ann) : Prop :=
  ∀ q u, t.NodeAt q u → ∀ h, K.get s u.ann = some h → u.refer P kec = .ok (.hashed h)

end Trie
end EthTrie
