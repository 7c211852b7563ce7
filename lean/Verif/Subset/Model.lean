import Verif.Hash.Model

/-!
# Model of `src/trie_subsets.rs`
-/

namespace EthTrie

open Nibbles

/-- `enum TrackedNodeIntern`, `struct TrackedNode` and `struct TrackedNodeInfo`
(`src/trie_subsets.rs:29-42, 156-168`).  Every constructor carries the clone of the underlying
node, which shares its cache cell with the original, and the `touched` flag. -/
inductive Tracked (α : Type) where
  | empty (u : Trie α) (touched : Bool)
  | hash (u : Trie α) (touched : Bool)
  | branch (u : Trie α) (touched : Bool) (children : Fin 16 → Tracked α)
  | ext (u : Trie α) (touched : Bool) (child : Tracked α)
  | leaf (u : Trie α) (touched : Bool)

namespace Tracked
variable {α : Type}

/-- `info.underlying_node` (`src/trie_subsets.rs:157-158`) -/
def u : Tracked α → Trie α
  | .empty u _ => u
  | .hash u _ => u
  | .branch u _ _ => u
  | .ext u _ _ => u
  | .leaf u _ => u

/-- `info.touched` (`src/trie_subsets.rs:159`) -/
def touched : Tracked α → Bool
  | .empty _ t => t
  | .hash _ t => t
  | .branch _ t _ => t
  | .ext _ t _ => t
  | .leaf _ t => t

/-- assignment to `info.touched` (`src/trie_subsets.rs:171, 264`) -/
def setTouched (b : Bool) : Tracked α → Tracked α
  | .empty u _ => .empty u b
  | .hash u _ => .hash u b
  | .branch u _ cs => .branch u b cs
  | .ext u _ c => .ext u b c
  | .leaf u _ => .leaf u b

/-- `TrackedNode::new` (`src/trie_subsets.rs:44-61`) with `tracked_branch` (`63-84`). -/
def new : Trie α → Tracked α
  | .empty a => .empty (.empty a) false
  | .hash a h => .hash (.hash a h) false
  | .branch a cs v => .branch (.branch a cs v) false fun i => new (cs i)
  | .ext a n c => .ext (.ext a n c) false (new c)
  | .leaf a n v => .leaf (.leaf a n v) false

end Tracked

/-- `TrackedNodeInfo::get_nibbles_expected` (`src/trie_subsets.rs:174-183`). -/
def getNibblesExpected {α : Type} : Trie α → R Nibbles
  | .ext _ n _ => .ok n
  | .leaf _ n _ => .ok n
  | _ => .error .unreachableCode

/-- `TrackedNodeInfo::get_hash_node_hash_expected` (`src/trie_subsets.rs:185-190`). -/
def getHashNodeHashExpected {α : Type} : Trie α → R H256
  | .hash _ h => .ok h
  | _ => .error .unreachableCode

/-- `TrackedNodeInfo::get_branch_value_expected` (`src/trie_subsets.rs:192-197`). -/
def getBranchValueExpected {α : Type} : Trie α → R Bytes
  | .branch _ _ v => .ok v
  | _ => .error .unreachableCode

/-- `TrackedNodeInfo::get_leaf_nibbles_and_value_expected` (`src/trie_subsets.rs:199-204`). -/
def getLeafNibblesAndValueExpected {α : Type} : Trie α → R (Nibbles × Bytes)
  | .leaf _ n v => .ok (n, v)
  | _ => .error .unreachableCode

/-- `enum SubsetTrieError` (`src/trie_subsets.rs:22-27`) without the text of the trie, which is
added in `Verif/Debug/Errors.lean`. -/
inductive SubsetError where
  | unexpectedKey (k : Nibbles)
  deriving DecidableEq

/-- `mark_nodes_that_are_needed` (`src/trie_subsets.rs:260-296`).  On `Err` the caller drops the
tracked trie, so only the success case returns it. -/
def mark {α : Type} (P : Profile) : Tracked α → Nibbles → R (Except SubsetError (Tracked α))
  | .empty u _, _ => return .ok (.empty u true)
  | .hash u _, k => do
    match k.isEmpty with
    | false => return .error (.unexpectedKey k)
    | true => return .ok (.hash u true)
  | .branch u _ cs, k => do
    if k.isEmpty then
      return .ok (.branch u true cs)
    else
      let (nib, rest) ← k.popNextFront P
      let i ← idx16 nib
      match ← mark P (cs i) rest with
      | .error e => return .error e
      | .ok c => return .ok (.branch u true (upd cs i c))
  | .ext u _ c, k => do
    let nibbles ← getNibblesExpected u
    let (r, rest) ← k.popNibblesFront P nibbles.count
    match ← r.identicalUpToSmallest P nibbles with
    | false => return .ok (.ext u true c)
    | true =>
      match ← mark P c rest with
      | .error e => return .error e
      | .ok c' => return .ok (.ext u true c')
  | .leaf u _, _ => return .ok (.leaf u true)

/-- The key loop of `create_trie_subset_intern` (`src/trie_subsets.rs:253-255`). -/
def markAll {α : Type} (P : Profile) (t : Tracked α) :
    List Nibbles → R (Except SubsetError (Tracked α))
  | [] => return .ok t
  | k :: ks => do
    match ← mark P t k with
    | .error e => return .error e
    | .ok t' => markAll P t' ks

/-- `reset_tracked_trie_state` (`src/trie_subsets.rs:332-342`). -/
def resetTracked {α : Type} : Tracked α → Tracked α
  | .branch u b cs => .branch u b fun i => (cs i).setTouched false
  | .ext u b c => .ext u b (c.setTouched false)
  | t => t.setTouched false

section
variable {α : Type} (P : Profile) (kec : Bytes → H256)

/-- The case distinction on `hash_intern` at the start of
`create_partial_trie_subset_from_tracked_trie` (`src/trie_subsets.rs:301-309`): the hash to replace
the node with, if any. -/
def hashAway (t : Tracked α) : Prog α (Option H256) := do
  if !t.touched then
    match ← hashIntern P kec t.u with
    | .hashed h => return some h
    | .raw _ => return none
  else return none

/-- `create_partial_trie_subset_from_tracked_trie` (`src/trie_subsets.rs:298-330`) with
`partial_trie_branch` and `partial_trie_extension` (`86-154`). -/
def createSubset : Tracked α → Prog α (Trie α)
  | .empty u b => do
    match ← hashAway P kec (.empty u b) with
    | some h => newHash h
    | none => newEmpty
  | .hash u b => do
    match ← hashAway P kec (.hash u b) with
    | some h => newHash h
    | none => newHash (← Prog.lift (getHashNodeHashExpected u))
  | .branch u b cs => do
    match ← hashAway P kec (.branch u b cs) with
    | some h => newHash h
    | none =>
      let value ← Prog.lift (getBranchValueExpected u)
      let ts ← Prog.seq ((List.finRange 16).map fun i => createSubset (cs i))
      let e ← Prog.lift (rindex ts 0)
      newBranch (fun i => ts.getD i.val e) value
  | .ext u b c => do
    match ← hashAway P kec (.ext u b c) with
    | some h => newHash h
    | none =>
      let nibbles ← Prog.lift (getNibblesExpected u)
      let t ← createSubset c
      newExt nibbles t
  | .leaf u b => do
    match ← hashAway P kec (.leaf u b) with
    | some h => newHash h
    | none =>
      let (nibbles, value) ← Prog.lift (getLeafNibblesAndValueExpected u)
      newLeaf nibbles value

/-- `create_trie_subset` (`src/trie_subsets.rs:212-220, 245-258`). -/
def createTrieSubset (t : Trie α) (ks : List Nibbles) : Prog α (Except SubsetError (Trie α)) := do
  match ← Prog.lift (markAll P (Tracked.new t) ks) with
  | .error e => return .error e
  | .ok tr => return .ok (← createSubset P kec tr)

/-- The loop of `create_trie_subsets` (`src/trie_subsets.rs:234-242`). -/
def createTrieSubsetsFrom (tr : Tracked α) :
    List (List Nibbles) → Prog α (Except SubsetError (List (Trie α)))
  | [] => return .ok []
  | ks :: kss => do
    match ← Prog.lift (markAll P tr ks) with
    | .error e => return .error e
    | .ok tr' =>
      let res ← createSubset P kec tr'
      match ← createTrieSubsetsFrom (resetTracked tr') kss with
      | .error e => return .error e
      | .ok rs => return .ok (res :: rs)

/-- `create_trie_subsets` (`src/trie_subsets.rs:225-243`). -/
def createTrieSubsets (t : Trie α) (kss : List (List Nibbles)) :
    Prog α (Except SubsetError (List (Trie α))) :=
  createTrieSubsetsFrom P kec (Tracked.new t) kss

end

end EthTrie
