import Verif.Nibbles.Model
import Verif.Trie.Prog

/-!
# Model of `src/partial_trie.rs` and `src/trie_ops.rs`

One tree type for both trie types of the crate: every node carries the annotation that the wrapper
type stores next to the `Node`, namely nothing for `StandardTrie` and a reference to a cache cell
for `HashedPartialTrie`.  `Arc` sharing of nodes is value semantics (nodes behind an `Arc` are never
mutated); sharing of cache cells is explicit: they live in a heap.

`trace!` logging is not modelled.
-/

namespace EthTrie

open Nibbles

/-- `enum Node<T>` together with the fields of its wrapper `T` (`src/partial_trie.rs:117-148,
193-197, 284-291`).  `children: [WrappedNode<T>; 16]` is a function on `Fin 16`. -/
inductive Trie (α : Type) where
  | empty (a : α)
  | hash (a : α) (h : H256)
  | branch (a : α) (children : Fin 16 → Trie α) (value : Bytes)
  | ext (a : α) (nibbles : Nibbles) (child : Trie α)
  | leaf (a : α) (nibbles : Nibbles) (value : Bytes)

namespace Trie

/-- The annotation of the root node (`src/partial_trie.rs:288-291`). -/
def ann {α : Type} : Trie α → α
  | .empty a => a
  | .hash a _ => a
  | .branch a _ _ => a
  | .ext a _ _ => a
  | .leaf a _ _ => a

/-- The same node in a wrapper with another annotation (`src/partial_trie.rs:288-291`). -/
def setAnn {α : Type} (b : α) : Trie α → Trie α
  | .empty _ => .empty b
  | .hash _ h => .hash b h
  | .branch _ cs v => .branch b cs v
  | .ext _ n c => .ext b n c
  | .leaf _ n v => .leaf b n v

end Trie

/-- `StandardTrie` (`src/partial_trie.rs:197`). -/
abbrev StandardTrie := Trie Unit
/-- `HashedPartialTrie` (`src/partial_trie.rs:288-291`). -/
abbrev HashedPartialTrie := Trie CellId

/-- `enum ValOrHash` (`src/trie_ops.rs:46-54`). -/
inductive ValOrHash where
  | val (v : Bytes)
  | hash (h : H256)
  deriving DecidableEq

/-- `ValOrHash::expect_val` (`src/trie_ops.rs:117-120`). -/
def ValOrHash.expectVal : ValOrHash → R Bytes
  | .val v => .ok v
  | .hash _ => .error .expectFailed

/-- `struct InsertEntry` (`src/trie_ops.rs:18-21`). -/
structure InsertEntry where
  nibbles : Nibbles
  v : ValOrHash

/-- `struct ExistingAndNewNodePreAndPost` (`src/trie_ops.rs:123-129`). -/
structure PrePost where
  commonPrefix : Nibbles
  existingPostfix : Nibbles
  newPostfix : Nibbles

/-- `get_pre_and_postfixes_for_existing_and_new_nodes` (`src/trie_ops.rs:569-588`). -/
def getPreAndPostfixes (P : Profile) (existing new : Nibbles) : R PrePost := do
  let idx ← findDiffDifferentLengths P existing new
  let (commonPrefix, existingPostfix) ← existing.splitAtIdx P idx
  let newPostfix ← new.splitAtIdxPostfix P idx
  return ⟨commonPrefix, existingPostfix, newPostfix⟩

section
variable {α : Type}

/-- `N::new(Node::Empty)` (`src/partial_trie.rs:425, src/trie_subsets.rs:312`) -/
def newEmpty : Prog α (Trie α) := .alloc fun a => .ret (.empty a)
/-- `N::new(Node::Hash(h))` (`src/trie_ops.rs:741, src/trie_subsets.rs:307, 314`) -/
def newHash (h : H256) : Prog α (Trie α) := .alloc fun a => .ret (.hash a h)
/-- `branch` (`src/trie_ops.rs:708-713`) -/
def newBranch (cs : Fin 16 → Trie α) (v : Bytes) : Prog α (Trie α) :=
  .alloc fun a => .ret (.branch a cs v)
/-- `extension` (`src/trie_ops.rs:722-724`) -/
def newExt (n : Nibbles) (c : Trie α) : Prog α (Trie α) :=
  .alloc fun a => .ret (.ext a n c)
/-- `leaf` (`src/trie_ops.rs:726-728`) -/
def newLeaf (n : Nibbles) (v : Bytes) : Prog α (Trie α) :=
  .alloc fun a => .ret (.leaf a n v)

/-- `node_is_empty` (`src/trie_ops.rs:704-706`). -/
def nodeIsEmpty : Trie α → Bool
  | .empty _ => true
  | _ => false

/-- `create_node_from_insert_val` (`src/trie_ops.rs:734-755`). -/
def createNodeFromInsertVal (n : Nibbles) : ValOrHash → Prog α (Trie α)
  | .val v => newLeaf n v
  | .hash h => do
    match n.isEmpty with
    | false => newExt n (← newHash h)
    | true => newHash h

/-- `branch_from_insert_val` with `create_node_if_ins_val_not_hash`
(`src/trie_ops.rs:715-720, 757-767`). -/
def branchFromInsertVal (cs : Fin 16 → Trie α) : ValOrHash → Prog α (Trie α)
  | .val v => newBranch cs v
  | .hash _ => Prog.panic .hashOnExisting

/-- `leaf_from_insert_val` with `create_node_if_ins_val_not_hash`
(`src/trie_ops.rs:730-732, 757-767`). -/
def leafFromInsertVal (n : Nibbles) : ValOrHash → Prog α (Trie α)
  | .val v => newLeaf n v
  | .hash _ => Prog.panic .hashOnExisting

/-- The first `n` elements of the array built by `new_branch_child_arr`
(`src/trie_ops.rs:665-686`): each is a separate `Node::Empty.into()`. -/
def newEmpties : Nat → Prog α (List (Trie α))
  | 0 => pure []
  | n + 1 => do
    let t ← newEmpty
    let ts ← newEmpties n
    return t :: ts

/-- `new_branch_child_arr` (`src/trie_ops.rs:665-686`).  (The list has 16 elements; the default of
`getD` is never used and only there because lists carry no length.) -/
def newBranchChildArr : Prog α (Fin 16 → Trie α) := do
  let e ← newEmpty
  let ts ← newEmpties 15
  return fun i => (e :: ts).getD i.val e

/-- `ins_entry_into_leaf_and_nibble` (`src/trie_ops.rs:650-663`). -/
def insEntryIntoLeafAndNibble (P : Profile) (info : PrePost) (e : InsertEntry) :
    Prog α (Nibble × Trie α) := do
  let newFirst ← Prog.lift (info.newPostfix.getNibble P 0)
  let amt ← Prog.lift (uadd P info.commonPrefix.count 1)
  let nib ← Prog.lift (e.nibbles.truncateFront P amt)
  let node ← createNodeFromInsertVal nib e.v
  return (newFirst, node)

/-- `ExistingOrNewBranchValuePlacement` (`src/trie_ops.rs:131-138`). -/
inductive Placement (α : Type) where
  | branchValue (v : Bytes) (nib : Nibble) (node : Trie α)
  | bothChildren (nib1 : Nibble) (node1 : Trie α) (nib2 : Nibble) (node2 : Trie α)

/-- `check_if_existing_or_new_node_should_go_in_branch_value_field`
(`src/trie_ops.rs:621-648`). -/
def checkPlacement (P : Profile) (info : PrePost) (existing : Trie α) (e : InsertEntry) :
    Prog α (Placement α) :=
  match info.existingPostfix.count, info.newPostfix.count, existing with
  | 0, _, .leaf _ _ value => do
    let (nib, node) ← insEntryIntoLeafAndNibble P info e
    return .branchValue value nib node
  | _, 0, _ => do
    let v ← Prog.lift e.v.expectVal
    let nib ← Prog.lift (info.existingPostfix.getNibble P 0)
    return .branchValue v nib existing
  | _, _, _ => do
    let nib1 ← Prog.lift (info.existingPostfix.getNibble P 0)
    let (nib2, node2) ← insEntryIntoLeafAndNibble P info e
    return .bothChildren nib1 existing nib2 node2

/-- `place_branch_and_potentially_ext_prefix` (`src/trie_ops.rs:590-619`). -/
def placeBranch (P : Profile) (info : PrePost) (existing : Trie α) (e : InsertEntry) :
    Prog α (Trie α) := do
  let children ← newBranchChildArr
  let (children, value) ← (do
    match ← checkPlacement P info existing e with
    | .branchValue v nib node =>
      let i ← Prog.lift (idx16 nib)
      return (upd children i node, v)
    | .bothChildren nib1 node1 nib2 node2 =>
      let i ← Prog.lift (idx16 nib1)
      let j ← Prog.lift (idx16 nib2)
      return (upd (upd children i node1) j node2, []))
  let b ← newBranch children value
  match info.commonPrefix.count with
  | 0 => return b
  | _ => newExt info.commonPrefix b

/-- `insert_into_trie_rec` (`src/trie_ops.rs:363-449`). -/
def insertRec (P : Profile) : Trie α → InsertEntry → Prog α (Option (Trie α))
  | .empty _, e => do return some (← createNodeFromInsertVal e.nibbles e.v)
  | .hash _ _, _ => Prog.panic .hashInsert
  | .branch _ children value, e => do
    if e.nibbles.count == 0 then
      return some (← branchFromInsertVal children e.v)
    else
      let (nibble, rest) ← Prog.lift (e.nibbles.popNextFront P)
      let i ← Prog.lift (idx16 nibble)
      match ← insertRec P (children i) ⟨rest, e.v⟩ with
      | none => return none
      | some updated => return some (← newBranch (upd children i updated) value)
  | .ext _ nibbles child, e => do
    let info ← Prog.lift (getPreAndPostfixes P nibbles e.nibbles)
    if ← Prog.lift (nibbles.identicalUpToSmallest P e.nibbles) then
      let rest ← Prog.lift (e.nibbles.truncateFront P nibbles.count)
      match ← insertRec P child ⟨rest, e.v⟩ with
      | none => return none
      | some updated => return some (← newExt nibbles updated)
    else
      let adj ← Prog.lift (info.existingPostfix.truncateFront P 1)
      let updatedExisting ← (match adj.count with
        | 0 => pure child
        | _ => newExt adj child)
      return some (← placeBranch P info updatedExisting e)
  | .leaf _ nibbles value, e => do
    if nibbles == e.nibbles then
      return some (← leafFromInsertVal nibbles e.v)
    else
      let info ← Prog.lift (getPreAndPostfixes P nibbles e.nibbles)
      let amt ← Prog.lift (uadd P info.commonPrefix.count 1)
      let existing ← newLeaf (← Prog.lift (nibbles.truncateFront P amt)) value
      return some (← placeBranch P info existing e)

/-- `trie_insert` (`src/trie_ops.rs:264-275`): the node is replaced inside its wrapper, which keeps
its own annotation. -/
def trieInsert (P : Profile) (t : Trie α) (k : Nibbles) (v : ValOrHash) : Prog α (Trie α) := do
  match ← insertRec P t ⟨k, v⟩ with
  | none => Prog.panic .expectFailed
  | some t' => return t'.setAnn t.ann

/-- `trie_extend` (`src/trie_ops.rs:277-286`). -/
def trieExtend (P : Profile) (t : Trie α) : List (Nibbles × ValOrHash) → Prog α (Trie α)
  | [] => pure t
  | (k, v) :: rest => do
    let t' ← trieInsert P t k v
    trieExtend P t' rest

/-- `trie_get_intern` (`src/trie_ops.rs:295-329`). -/
def getIntern (P : Profile) : Trie α → Nibbles → R (Option Bytes)
  | .empty _, _ => return none
  | .hash _ _, _ => return none
  | .branch _ children value, k => do
    if k.isEmpty then
      return (if !value.isEmpty then some value else none)
    else
      let (nib, rest) ← k.popNextFront P
      let i ← idx16 nib
      getIntern P (children i) rest
  | .ext _ nibbles child, k => do
    let (r, rest) ← k.popNibblesFront P nibbles.count
    match ← r.identicalUpToSmallest P nibbles with
    | false => return none
    | true => getIntern P child rest
  | .leaf _ nibbles value, k => do
    match ← nibbles.identicalUpToSmallest P k with
    | false => return none
    | true => return some value

/-- `get_num_non_empty_children` (`src/trie_ops.rs:688-690`). -/
def numNonEmptyChildren (children : Fin 16 → Trie α) : Nat :=
  ((List.finRange 16).filter fun i => !nodeIsEmpty (children i)).length

/-- `get_other_non_empty_child_and_nibble_in_two_elem_branch` (`src/trie_ops.rs:692-702`). -/
def getOtherNonEmptyChild (children : Fin 16 → Trie α) (ourNib : Nibble) :
    R (Nibble × Trie α) :=
  match (List.finRange 16).find? (fun i => i.val != ourNib && !nodeIsEmpty (children i)) with
  | some i => .ok (i.val, children i)
  | none => .error .expectFailed

/-- `collapse_ext_node_if_needed` (`src/trie_ops.rs:538-567`). -/
def collapseExt (P : Profile) (extNibbles : Nibbles) (child : Trie α) : Prog α (Trie α) :=
  match child with
  | .branch .. => newExt extNibbles child
  | .ext _ other otherChild => do
    newExt (← Prog.lift (extNibbles.mergeNibbles P other)) otherChild
  | .leaf _ leafNibbles value => do
    newLeaf (← Prog.lift (extNibbles.mergeNibbles P leafNibbles)) value
  | .hash .. => newExt extNibbles child
  | .empty _ => Prog.panic .impossibleExtChild

/-- `try_collapse_if_extension` (`src/trie_ops.rs:531-536`). -/
def tryCollapseIfExt (P : Profile) (node : Trie α) : Prog α (Trie α) :=
  match node with
  | .ext _ nibbles child => collapseExt P nibbles child
  | _ => pure node

/-- `delete_intern` (`src/trie_ops.rs:451-529`). -/
def deleteIntern (P : Profile) : Trie α → Nibbles → Prog α (Option (Trie α × Bytes))
  | .empty _, _ => return none
  | .hash _ _, _ => Prog.panic .hashDelete
  | .branch _ children value, k => do
    if k.isEmpty then
      return some (← newBranch children [], value)
    else
      let (nibble, rest) ← Prog.lift (k.popNextFront P)
      let i ← Prog.lift (idx16 nibble)
      match ← deleteIntern P (children i) rest with
      | none => return none
      | some (updatedChild, deleted) =>
        let updatedNode ← (match nodeIsEmpty updatedChild && numNonEmptyChildren children ≤ 2 with
          | false => do
            let c ← tryCollapseIfExt P updatedChild
            newBranch (upd children i c) value
          | true => do
            let (childNibble, nonEmpty) ← Prog.lift (getOtherNonEmptyChild children nibble)
            newExt (← Prog.lift (fromNibble childNibble)) nonEmpty)
        return some (updatedNode, deleted)
  | .ext _ extNibbles child, k => do
    if ← Prog.lift (extNibbles.identicalUpToSmallest P k) then
      let rest ← Prog.lift (k.truncateFront P extNibbles.count)
      match ← deleteIntern P child rest with
      | none => return none
      | some (updatedChild, deleted) =>
        return some (← collapseExt P extNibbles updatedChild, deleted)
    else return none
  | .leaf _ nibbles value, k => do
    if nibbles == k then
      return some (← newEmpty, value)
    else return none

/-- `trie_delete` (`src/trie_ops.rs:331-345`).  The deep clone `self.clone()` is a clone of the
node, whose children are shared. -/
def trieDelete (P : Profile) (t : Trie α) (k : Nibbles) : Prog α (Trie α × Option Bytes) := do
  match ← deleteIntern P t k with
  | none => return (t, none)
  | some (updatedRoot, deleted) =>
    let r ← tryCollapseIfExt P updatedRoot
    return (r.setAnn t.ann, some deleted)

/-! ### The trait methods -/

/-- `set_hash` (`src/partial_trie.rs:306-308`). -/
def setHash (t : Trie α) (v : Option H256) : Prog α Unit := .write t.ann v (.ret ())

/-- `PartialTrie::insert` (`src/partial_trie.rs:206-212, 319-326`).  For `StandardTrie` the cache
operation is a no-op. -/
def Trie.insert (P : Profile) (t : Trie α) (k : Nibbles) (v : ValOrHash) : Prog α (Trie α) := do
  let t' ← trieInsert P t k v
  setHash t' none
  return t'

/-- `PartialTrie::extend` (`src/partial_trie.rs:214-221, 328-336`). -/
def Trie.extend (P : Profile) (t : Trie α) (xs : List (Nibbles × ValOrHash)) : Prog α (Trie α) := do
  let t' ← trieExtend P t xs
  setHash t' none
  return t'

/-- `PartialTrie::get` (`src/partial_trie.rs:223-228, 338-343`; `trie_get`
`src/trie_ops.rs:288-293`). -/
def Trie.get (P : Profile) (t : Trie α) (k : Nibbles) : R (Option Bytes) := getIntern P t k

/-- `PartialTrie::delete` (`src/partial_trie.rs:230-235, 345-353`). -/
def Trie.delete (P : Profile) (t : Trie α) (k : Nibbles) : Prog α (Trie α × Option Bytes) := do
  let (t', res) ← trieDelete P t k
  setHash t' none
  return (t', res)

/-- `from_iter_common` (`src/partial_trie.rs:420-429`). -/
def fromIter (P : Profile) (xs : List (Nibbles × ValOrHash)) : Prog α (Trie α) := do
  let root ← newEmpty
  Trie.extend P root xs

end

/-- `PartialEq for Node` (`src/partial_trie.rs:150-191`) and `PartialEq` of the wrappers
(`src/partial_trie.rs:196, 403-408`): annotations are ignored. -/
def Trie.beq {α β : Type} : Trie α → Trie β → Bool
  | .empty _, .empty _ => true
  | .hash _ h1, .hash _ h2 => h1 == h2
  | .branch _ c1 v1, .branch _ c2 v2 =>
    v1 == v2 && (List.finRange 16).all fun i => (c1 i).beq (c2 i)
  | .ext _ n1 c1, .ext _ n2 c2 => n1 == n2 && c1.beq c2
  | .leaf _ n1 v1, .leaf _ n2 v2 => n1 == n2 && v1 == v2
  | _, _ => false

end EthTrie
