import Verif.Spec.YP

/-!
# Specification: partial contents

Contents in which sub-tries have been replaced by their hashes, and when a subset of a trie can be
taken; in terms of contents only.
-/

namespace EthTrie

open Spec

namespace KMap

/-- `m'` is `m` with the entries below some keys replaced by the hashes of the sub-tries of these
entries; the root hash is the same. -/
structure Elided (kec : Bytes → H256) (m m' : KMap) : Prop where
  /-- every entry is an old one, or the hash of the node for all entries below its key; the
  encoding of this node has at least 32 bytes -/
  keep : ∀ k v, m' k = some v → m k = some v ∨
    ∃ h J, v = .hash h ∧ Lists J (m.sub k) ∧ 32 ≤ (node kec J).length ∧ h = kec (node kec J)
  /-- every old entry is still there or below a hash -/
  cover : ∀ k v, m k = some v → m' k = some v ∨ ∃ q h, q <+: k ∧ m' q = some (.hash h)
  /-- the root hash is the same -/
  root : ∀ J J', Lists J m → Lists J' m' → trieRoot kec J' = trieRoot kec J

/-- Nothing on the path of the key has been replaced. -/
def Agree (m m' : KMap) (k : Key) : Prop := ∀ q, q <+: k → m' q = m q

/-- The key runs into an elided sub-trie with the nibbles `r` left over. -/
def RunsInto (m : KMap) (k r : Key) : Prop := r ≠ [] ∧ ∃ q h, k = q ++ r ∧ m q = some (.hash h)

/-- `r` is left over from the first key that runs into an elided sub-trie. -/
def FirstErr (m : KMap) (ks : List Key) (r : Key) : Prop :=
  ∃ ks₁ k ks₂, ks = ks₁ ++ k :: ks₂ ∧ (∀ k' ∈ ks₁, ¬ ∃ r, RunsInto m k' r) ∧ RunsInto m k r

/-- None of the keys runs into an elided sub-trie. -/
def NoErr (m : KMap) (ks : List Key) : Prop := ∀ k ∈ ks, ¬ ∃ r, RunsInto m k r

end KMap
end EthTrie
