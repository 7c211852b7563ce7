import Verif.Spec.Elide
import Verif.Spec.Lookup

/-!
# Specification: contents with sub-tries replaced by hashes

When some contents are other contents with sub-tries replaced by their hashes, said without tries.
-/

namespace EthTrie

open Spec

namespace KMap

/-- A node begins after the nibbles `q`: at the root, below a stored key, below a fork, or where
entries fork or end. -/
def Joint (m : KMap) (q : Key) : Prop := m.NodeAt q ∨ m.Forks q ∨ (m q ≠ none ∧ m.Below q)

/-- `m'` is `m` with the entries below some keys, after each of which a node with an encoding of at
least 32 bytes begins, replaced by the root hash of these entries. -/
structure CutOf (kec : Bytes → H256) (m m' : KMap) : Prop where
  /-- every entry is an old one or the hash of the sub-trie that begins there -/
  keep : ∀ k v, m' k = some v → m k = some v ∨
    ∃ J, Lists J (m.sub k) ∧ m.Joint k ∧ 32 ≤ (node kec J).length ∧ v = .hash (trieRoot kec J)
  /-- every old entry is still there or below a hash -/
  cover : ∀ k v, m k = some v → m' k = some v ∨ ∃ q h, q <+: k ∧ m' q = some (.hash h)

/-- The encodings of the entries of `m` and `m'` below some key are different and have the same hash. -/
def Collide (kec : Bytes → H256) (m m' : KMap) : Prop :=
  ∃ q J J', Lists J (m.sub q) ∧ Lists J' (m'.sub q) ∧ node kec J ≠ node kec J' ∧
    kec (node kec J) = kec (node kec J')

end KMap
end EthTrie
