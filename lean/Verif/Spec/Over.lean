import Verif.Spec.Program

/-!
# Specification: programs over a set of keys
-/

namespace EthTrie

open KMap

/-- All keys of the call belong to `S` and all entries are values; no subsets are made. -/
def Cmd.Over (S : Key → Prop) : Cmd → Prop
  | .fromIter xs => ∀ x ∈ xs, S x.1 ∧ ∃ v, x.2 = .val v
  | .insert _ k v => S k ∧ ∃ b, v = .val b
  | .extend _ xs => ∀ x ∈ xs, S x.1 ∧ ∃ v, x.2 = .val v
  | .delete _ k => S k
  | .get _ k => S k
  | .subset _ _ => False
  | .subsets _ _ => False
  | _ => True

/-- The call puts keys together again: it asserts that they have at most 64 nibbles. -/
def Cmd.Merges : Cmd → Prop
  | .delete _ _ => True
  | .items _ => True
  | _ => False

/-- No key of `S` is a proper prefix of another one. -/
def PrefixFree (S : Key → Prop) : Prop := ∀ a b, S a → S b → a <+: b → a = b

/-- All stored keys belong to `S` and all entries are values. -/
def KMap.In (S : Key → Prop) (m : KMap) : Prop := ∀ k v, m k = some v → S k ∧ ∃ b, v = .val b

/-- The lookups of a program can be followed in builds with overflow checks. -/
def PathsOK (kec : Bytes → H256) (ms : List KMap) : List Cmd → Prop
  | [] => True
  | c :: cs => (∀ i k m, c = .get i k → ms[i]? = some m → PathOK m k) ∧
      ∀ o ms', Step kec ms c o ms' → PathsOK kec ms' cs

end EthTrie
