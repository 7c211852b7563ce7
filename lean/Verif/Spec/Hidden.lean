import Verif.Spec.Cut

/-!
# Specification: what a subset leaves out

Which entries a subset for some keys leaves out, and where their hashes are; in terms of contents only.
-/

namespace EthTrie

open Spec

namespace KMap

/-- After the nibbles `q` a node begins that none of the keys leads to and whose encoding has at least 32
bytes. -/
def Hidden (kec : Bytes → H256) (ks : List Key) (m : KMap) (q : Key) : Prop :=
  m.Joint q ∧ (∀ k ∈ ks, ¬ q <+: k) ∧ ∃ J, Lists J (m.sub q) ∧ 32 ≤ (node kec J).length

/-- After the nibbles `q` the first such node on the way begins. -/
def Hides (kec : Bytes → H256) (ks : List Key) (m : KMap) (q : Key) : Prop :=
  m.Hidden kec ks q ∧ ∀ p, p <+: q → p ≠ q → ¬ m.Hidden kec ks p

end KMap
end EthTrie
