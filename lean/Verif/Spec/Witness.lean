import Verif.Spec.Replay

/-!
# Specification: which keys deletions need

Deletions can leave a single branch where entries forked.  Which other keys have to be known for this.
-/

namespace EthTrie

open Spec

/-- Where entries of `m` fork and those of `m'` do not any more, the branch that is left forks at once, or
leads to one of the keys `ks`, or has an encoding of less than 32 bytes. -/
def KMap.Witness (kec : Bytes → H256) (ks : List Key) (m m' : KMap) : Prop :=
  ∀ q d, m.Forks q → ¬ m'.Forks q → (∃ r, m' (q ++ d :: r) ≠ none) →
    m.Forks (q ++ [d]) ∨ (∃ k ∈ ks, q ++ [d] <+: k) ∨
    ∀ J, Lists J (m.sub (q ++ [d])) → (node kec J).length < 32

end EthTrie
