import Verif.Sys.Spec
import Verif.Trie.Plain

/-!
# Contents of handles; ways to use hashed tries
-/

namespace EthTrie

open Spec KMap LNode Nibbles

theorem RepN.plain {kec : Bytes → H256} {α S : Type} [K : TrieKind α S] [L : KindLaws kec α S]
    {w : L.W} {t : Trie α} {l : LNode} (h : RepN kec w t l) : t.plain = l := by
  induction h with
  | empty a => rfl
  | hash a h => rfl
  | branch a cs lcs v h ho ih => simp only [Trie.plain, ih]
  | ext a k c lc hk h ho ih => simp only [Trie.plain, ih, toList_ofList hk]
  | leaf a k v hk => simp only [Trie.plain, toList_ofList hk]

/-- The contents of all handles. -/
def Sys.contents {α S : Type} (s : Sys α S) : List KMap := s.hs.map Trie.contents

/-- Ways to use hashed tries. -/
inductive Mode where
  /-- nothing is cloned -/
  | noClone
  /-- no subset for an empty list of keys is made -/
  | noEmptySubset
  /-- no restriction -/
  | any

/-- The calls that are permitted; for `StandardTrie` all of them. -/
def permitted : Kind → Mode → Cmd → Prop
  | .standard, _, _ => True
  | .hashed, .noClone, .clone _ => False
  | .hashed, .noEmptySubset, .subset _ ks => ks ≠ []
  | .hashed, .noEmptySubset, .subsets _ kss => [] ∉ kss
  | .hashed, _, _ => True

/-- The modes in which cache cells are never stale. -/
class Mode.Safe (M : Mode) : Prop where
  ne : M ≠ .any

instance : Mode.noClone.Safe := ⟨by simp⟩
instance : Mode.noEmptySubset.Safe := ⟨by simp⟩

theorem permitted_any (K : Kind) (c : Cmd) : permitted K .any c := by
  cases K <;> trivial

end EthTrie
