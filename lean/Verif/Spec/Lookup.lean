import Verif.Spec.Map

/-!
# Specification: what lookups really return

In builds with overflow checks `get` behaves as follows on canonical tries.
-/

namespace EthTrie
namespace KMap

/-- The value `v` is returned for the key `k`: it is stored under `k`, or `k` is a prefix of exactly
one stored key and `v` is its value, or a prefix of `k` is stored with value `v` and nothing is
stored below it. -/
def Shown (m : KMap) (k : Key) (v : Bytes) : Prop :=
  m k = some (.val v) ∨
  (∃ q, m (k ++ q) = some (.val v) ∧ ∀ r, m (k ++ r) ≠ none → r = q) ∨
  (∃ q, q <+: k ∧ m q = some (.val v) ∧ ¬ m.Below q)

/-- The lookup of `k` stops inside a run of nibbles shared by several entries (or leading to an
elided sub-trie): some prefix `q` of `k` has at least two entries, or a hash, below it, and all
entries below `q` agree on more nibbles than `k` has. -/
def StopsInside (m : KMap) (k : Key) : Prop :=
  ∃ q p, q <+: k ∧ q <+: p ∧ k.length < p.length ∧ m.Below q ∧
    (∀ r, m r ≠ none → q <+: r → p <+: r) ∧ ¬ m.LoneVal q

/-- A node of the trie begins after the nibbles `q`: at the root, below a stored key, or where
entries fork. -/
def NodeAt (m : KMap) (q : Key) : Prop :=
  q = [] ∨ ∃ q' d, q = q' ++ [d] ∧ (m q' ≠ none ∨ m.Forks q')

/-- Without overflow checks a lookup that stops inside a run of zero nibbles continues at the end of
the run: the entries below a prefix `q` of `k` all begin with a run of zeros that is longer than the
rest of `k`, and `v` is stored at the end of the run, above other entries. -/
def ZeroRun (m : KMap) (k : Key) (v : Bytes) : Prop :=
  ∃ q j, q <+: k ∧ k.length < q.length + j ∧ m.NodeAt q ∧
    (∀ r, m r ≠ none → q <+: r → q ++ List.replicate j 0 <+: r) ∧
    m (q ++ List.replicate j 0) = some (.val v) ∧ m.Below (q ++ List.replicate j 0)

end KMap
end EthTrie
