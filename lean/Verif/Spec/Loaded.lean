import Verif.Serde.Model
import Verif.Spec.Canon
import Verif.Spec.View
import Verif.Sys.Mode

/-!
# Tries that were read from somewhere

What has to be true of a trie that was deserialised for it to be as good as one that was built by the
calls of the crate.
-/

namespace EthTrie

/-- Keys have at most `b` nibbles, all `Nibbles` have zeros above their nibbles, extensions have nibbles
and lead to branches or hash nodes. -/
def Trie.Formed {α : Type} : Trie α → Nat → Prop
  | .empty _, _ => True
  | .hash _ _, _ => True
  | .branch _ cs _, b => 1 ≤ b ∧ ∀ i, (cs i).Formed (b - 1)
  | .ext _ n c, b => n.packed.toNat < 16 ^ n.count ∧ n.count ≠ 0 ∧ n.count ≤ b ∧ c.BranchOrHash ∧
      c.Formed (b - n.count)
  | .leaf _ n _, b => n.packed.toNat < 16 ^ n.count ∧ n.count ≤ b

/-- The contents of the cell of a wrapper. -/
abbrev Kind.get (K : Kind) (s : K.State) (a : K.Ann) : Option H256 := K.trieKind.cacheGet a s

/-- A trie that is well-formed, with caches that are empty or right; `M` says what is required of the
cache of the root. -/
structure Trie.Sound (K : Kind) (M : Mode) (P : Profile) (kec : Bytes → H256) (s : K.State)
    (t : Trie K.Ann) : Prop where
  formed : t.Formed 127
  inner : ∀ q u, t.NodeAt q u → q ≠ [] → ∀ h, K.get s u.ann = some h → u.refer P kec = .ok (.hashed h)
  root : K = .hashed → match M with
    | .noClone => ∀ h, K.get s t.ann = some h → t.refer P kec = .ok (.hashed h)
    | .noEmptySubset => K.get s t.ann = none
    | .any => True

end EthTrie
