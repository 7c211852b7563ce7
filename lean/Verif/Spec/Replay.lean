import Verif.Spec.Cut
import Verif.Spec.Program

/-!
# Specification: lookups, insertions and deletions replayed on a partial trie

Sequences of calls on one trie, and what they do to its contents.
-/

namespace EthTrie

/-- A call on one trie. -/
inductive Op where
  /-- `t.get(k)` -/
  | get (k : Key)
  /-- `t.insert(k, v)` with a value -/
  | insert (k : Key) (v : Bytes)
  /-- `t.delete(k)` -/
  | delete (k : Key)

namespace Op

/-- The key of a call. -/
def key : Op → Key
  | .get k | .insert k _ | .delete k => k

/-- The call on handle `i`. -/
def on (i : Nat) : Op → Cmd
  | .get k => .get i k
  | .insert k v => .insert i k (.val v)
  | .delete k => .delete i k

/-- The call is no deletion. -/
def Keeps : Op → Prop
  | .delete _ => False
  | _ => True

/-- What the call does to the contents. -/
def effect (m : KMap) : Op → KMap
  | .get _ => m
  | .insert k v => m.put k (.val v)
  | .delete k => m.erase k

/-- What the call returns. -/
def reply (m : KMap) : Op → Obs
  | .get k | .delete k => .val (m.find k)
  | .insert _ _ => .unit

/-- What several calls do to the contents. -/
def effects (m : KMap) : List Op → KMap
  | [] => m
  | o :: os => effects (o.effect m) os

/-- What several calls return. -/
def replies (m : KMap) : List Op → List Obs
  | [] => []
  | o :: os => o.reply m :: replies (o.effect m) os

end Op

/-- All values have keys of `n` nibbles, and no key is longer. -/
structure KMap.FixedLen (n : Nat) (m : KMap) : Prop where
  le : ∀ q, m q ≠ none → q.length ≤ n
  val : ∀ q x, m q = some (.val x) → q.length = n

end EthTrie
