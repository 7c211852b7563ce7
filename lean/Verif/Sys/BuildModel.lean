import Verif.Serde.Model
import Verif.Spec.View

/-!
# Nodes that are assembled by hand

The variants of `Node` and their fields are public (`src/partial_trie.rs:117-146`), as are
`WrappedNode` (`31`) and `PartialTrie::new` (`60`), so a program can make nodes of its own from new
nodes and from parts of tries it has.
-/

namespace EthTrie

open Spec

/-- The sub-trie reached by the nibbles `q`, if there is a node there. -/
def Trie.nodeAt? {α : Type} : Trie α → Key → Option (Trie α)
  | .branch a cs v, q => match q with
    | [] => some (.branch a cs v)
    | d :: q => (cs d).nodeAt? q
  | .ext a n c, q => match q with
    | [] => some (.ext a n c)
    | d :: q => if n.toList <+: d :: q then c.nodeAt? ((d :: q).drop n.toList.length) else none
  | t, q => match q with
    | [] => some t
    | _ :: _ => none

mutual

/-- An expression for a node (`src/partial_trie.rs:117-146`). -/
inductive BNode where
  /-- `Node::Empty` -/
  | empty
  /-- `Node::Hash(h)` -/
  | hash (h : H256)
  /-- `Node::Leaf { nibbles, value }` -/
  | leaf (nibbles : Nibbles) (value : Bytes)
  /-- `Node::Extension { nibbles, child }` -/
  | ext (nibbles : Nibbles) (child : BChild)
  /-- `Node::Branch { children, value }` -/
  | branch (children : Fin 16 → BChild) (value : Bytes)
  /-- `(**t).clone()`, a clone of the node that is found at `q` below handle `i` -/
  | copy (i : Nat) (q : Key)

/-- An expression for a child (`WrappedNode`, `src/partial_trie.rs:31`). -/
inductive BChild where
  /-- `child.clone()`, where `child` is found at `q` below handle `i`; at the handle itself
  `Arc::new(Box::new(t.clone()))`.  Both share the cache cell. -/
  | share (i : Nat) (q : Key)
  /-- `WrappedNode::from(node)` (`src/partial_trie.rs:39-43`), a new wrapper with a new cell -/
  | new (n : BNode)
  /-- `let mut c = child.clone(); ***Arc::make_mut(&mut c) = node`, where `child` is found at `q` below
  handle `i`: another node in a wrapper with the same cell.  `make_mut` clones the wrapper unless there
  is no other reference to it, in which case `child` itself was taken from its place. -/
  | put (i : Nat) (q : Key) (n : BNode)

end

/-- The trie found at `q` below handle `i`. -/
def lookupNode {α : Type} (hs : List (Trie α)) (i : Nat) (q : Key) : Option (Trie α) :=
  (hs[i]?).bind fun t => t.nodeAt? q

/-- The children of a branch, if they were all found. -/
def allSome {β : Type} {n : Nat} (f : Fin n → Option β) : Option (Fin n → β) :=
  if h : ∀ i, (f i).isSome then some fun i => (f i).get (h i) else none

mutual

/-- Make a node; nothing, if some part does not exist.  The wrapper is left open. -/
def BNode.eval {α : Type} (hs : List (Trie α)) : BNode → Prog α (Option (α → Trie α))
  | .empty => .ret (some fun a => .empty a)
  | .hash h => .ret (some fun a => .hash a h)
  | .leaf n v => .ret (some fun a => .leaf a n v)
  | .ext n c => (c.eval hs).bind fun o => .ret (o.map fun c a => .ext a n c)
  | .branch cs v => (Prog.collect 16 fun i => (cs i).eval hs).bind fun f =>
    .ret ((allSome f).map fun cs a => .branch a cs v)
  | .copy i q => .ret ((lookupNode hs i q).map fun u a => u.setAnn a)

/-- Make a child (`src/partial_trie.rs:31-43`). -/
def BChild.eval {α : Type} (hs : List (Trie α)) : BChild → Prog α (Option (Trie α))
  | .share i q => .ret (lookupNode hs i q)
  | .new n => (n.eval hs).bind fun
    | none => .ret none
    | some f => .alloc fun a => .ret (some (f a))
  | .put i q n => (n.eval hs).bind fun o =>
    .ret (o.bind fun f => (lookupNode hs i q).map fun u => f u.ann)

end

mutual

/-- No handle is used as a child, only parts of them are, and these are not changed in place. -/
def BNode.Inner : BNode → Prop
  | .ext _ c => c.Inner
  | .branch cs _ => ∀ i, (cs i).Inner
  | _ => True

/-- See `BNode.Inner`. -/
def BChild.Inner : BChild → Prop
  | .share _ q => q ≠ []
  | .new n => n.Inner
  | .put _ _ _ => False

end

end EthTrie
