import Verif.Serde.Model

/-!
# What data stand for

Which data are accepted as a trie, and which trie that is, together with the contents of its caches.
-/

namespace EthTrie

open SData (ofBytes ofHash)

/-- There is exactly one field `a`, and it is `x`. -/
def Field {n : Nat} (name : Fin n → String) (val : Fin n → SData) (a : String) (x : SData) : Prop :=
  ∃ i, val i = x ∧ ∀ j, name j = a ↔ j = i

/-- The data are those of `Nibbles`; other fields do not matter, and neither does the order. -/
def NibblesFrom (d : SData) (k : Nibbles) : Prop :=
  ∃ n name val, d = .struct n name val ∧ Field name val "count" (.num k.count) ∧ k.count < 2 ^ 64 ∧
    Field name val "packed" (.word k.packed)

/-- The data are those of a node with data `x` in a wrapper whose cache contains `o`; a cache that is not
mentioned is empty. -/
def WrapFrom (cached : Bool) (d : SData) (o : Option H256) (x : SData) : Prop :=
  if cached then ∃ n name val, d = .struct n name val ∧ Field name val "node" x ∧
    (Field name val "hash" (ofHash o) ∨ (∀ j, name j ≠ "hash") ∧ o = none)
  else d = x ∧ o = none

/-- The data are those of the node of the trie; the annotations are the contents of the caches. -/
def Trie.NodeFrom (cached : Bool) : Trie (Option H256) → SData → Prop
  | .empty _, d => d = .variant "Empty" .unit
  | .hash _ h, d => d = .variant "Hash" (.digest h)
  | .leaf _ k v, d => ∃ n name val, d = .variant "Leaf" (.struct n name val) ∧
      (∃ x, Field name val "nibbles" x ∧ NibblesFrom x k) ∧ Field name val "value" (ofBytes v)
  | .ext _ k c, d => ∃ n name val, d = .variant "Extension" (.struct n name val) ∧
      (∃ x, Field name val "nibbles" x ∧ NibblesFrom x k) ∧
      ∃ x y, Field name val "child" x ∧ WrapFrom cached x c.ann y ∧ c.NodeFrom cached y
  | .branch _ cs v, d => ∃ n name val, d = .variant "Branch" (.struct n name val) ∧
      (∃ ds, Field name val "children" (.seq 16 ds) ∧
        ∀ i, ∃ y, WrapFrom cached (ds i) (cs i).ann y ∧ (cs i).NodeFrom cached y) ∧
      Field name val "value" (ofBytes v)

/-- The data are those of the trie. -/
def Trie.ReadFrom (cached : Bool) (t : Trie (Option H256)) (d : SData) : Prop :=
  ∃ x, WrapFrom cached d t.ann x ∧ t.NodeFrom cached x

/-- A trie with the contents of its caches. -/
def Trie.caches {α : Type} (get : α → Option H256) : Trie α → Trie (Option H256)
  | .empty a => .empty (get a)
  | .hash a h => .hash (get a) h
  | .branch a cs v => .branch (get a) (fun i => (cs i).caches get) v
  | .ext a k c => .ext (get a) k (c.caches get)
  | .leaf a k v => .leaf (get a) k v

/-- The counts are `usize`s (64-bit). -/
def Trie.Counts {α : Type} : Trie α → Prop
  | .branch _ cs _ => ∀ i, (cs i).Counts
  | .ext _ k c => k.count < 2 ^ 64 ∧ c.Counts
  | .leaf _ k _ => k.count < 2 ^ 64
  | _ => True

end EthTrie
