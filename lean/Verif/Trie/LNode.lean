import Verif.Hash.Model
import Verif.Spec.Bytes

/-!
# Intermediate tries with keys as nibble lists

`LNode` forgets annotations and represents keys as lists.  The operations below are the ones of
`Verif.Trie.Model` on this representation; `Verif.Trie.Sim` proves that the model refines them.
This file is proof infrastructure: it is not used in the statements about the code except through
the refinement.
-/

namespace EthTrie

open Spec

/-- Tries without annotations, with list keys. -/
inductive LNode where
  | empty
  | hash (h : H256)
  | branch (cs : Fin 16 → LNode) (v : Bytes)
  | ext (k : Key) (c : LNode)
  | leaf (k : Key) (v : Bytes)

namespace LNode

/-- Is the node `Empty`? -/
def isEmpty : LNode → Bool
  | .empty => true
  | _ => false

/-- Array of empty children. -/
def empties : Fin 16 → LNode := fun _ => .empty

/-- New node for an entry. -/
def mkNode (k : Key) : ValOrHash → LNode
  | .val v => .leaf k v
  | .hash h => match k with
    | [] => .hash h
    | _ :: _ => .ext k (.hash h)

/-- Extension unless the key is empty. -/
def mkExt (k : Key) (c : LNode) : LNode :=
  match k with
  | [] => c
  | _ :: _ => .ext k c

/-- Insertion. -/
def insert : LNode → Key → ValOrHash → R LNode
  | .empty, k, v => .ok (mkNode k v)
  | .hash _, _, _ => .error .hashInsert
  | .branch cs w, k, v =>
    match k with
    | [] => match v with
      | .val x => .ok (.branch cs x)
      | .hash _ => .error .hashOnExisting
    | d :: k' => do
      let c ← insert (cs d) k' v
      return .branch (upd cs d c) w
  | .ext n c, k, v =>
    if n <+: k ∨ k <+: n then do
      let c' ← insert c (k.drop n.length) v
      return .ext n c'
    else
      let p := cpl n k
      match n.drop p, k.drop p with
      | e :: nr, d :: kr =>
        .ok (mkExt (n.take p) (.branch (upd (upd empties e (mkExt nr c)) d (mkNode kr v)) []))
      | _, _ => .error .unreachableCode
  | .leaf n w, k, v =>
    if n = k then
      match v with
      | .val x => .ok (.leaf n x)
      | .hash _ => .error .hashOnExisting
    else
      let p := cpl n k
      match n.drop p, k.drop p with
      | [], d :: kr => .ok (mkExt (n.take p) (.branch (upd empties d (mkNode kr v)) w))
      | e :: nr, [] => match v with
        | .val x => .ok (mkExt (n.take p) (.branch (upd empties e (.leaf nr w)) x))
        | .hash _ => .error .expectFailed
      | e :: nr, d :: kr =>
        .ok (mkExt (n.take p) (.branch (upd (upd empties e (.leaf nr w)) d (mkNode kr v)) []))
      | [], [] => .error .unreachableCode

/-- Lookup. -/
def get (P : Profile) : LNode → Key → R (Option Bytes)
  | .empty, _ => .ok none
  | .hash _, _ => .ok none
  | .branch cs v, k =>
    match k with
    | [] => .ok (if v = [] then none else some v)
    | d :: k' => get P (cs d) k'
  | .ext n c, k =>
    if n.length ≤ k.length then
      if n <+: k then get P c (k.drop n.length) else .ok none
    else if P.overflowChecks then .error .overflow
    else if n = List.replicate n.length 0 then get P c [] else .ok none
  | .leaf n v, k => .ok (if n <+: k ∨ k <+: n then some v else none)

/-- Number of non-empty children. -/
def numNonEmpty (cs : Fin 16 → LNode) : Nat :=
  ((List.finRange 16).filter fun i => !(cs i).isEmpty).length

/-- Index of the first non-empty child other than `d`. -/
def other (cs : Fin 16 → LNode) (d : Fin 16) : Option (Fin 16) :=
  (List.finRange 16).find? fun i => i.val != d.val && !(cs i).isEmpty

/-- Collapsing of an extension with its child. -/
def collapse (n : Key) : LNode → R LNode
  | .branch cs v => .ok (.ext n (.branch cs v))
  | .ext m c => .ok (.ext (n ++ m) c)
  | .leaf m v => .ok (.leaf (n ++ m) v)
  | .hash h => .ok (.ext n (.hash h))
  | .empty => .error .impossibleExtChild

/-- Collapsing if the node is an extension. -/
def tryCollapse : LNode → R LNode
  | .ext n c => collapse n c
  | .empty => .ok .empty
  | .hash h => .ok (.hash h)
  | .branch cs v => .ok (.branch cs v)
  | .leaf n v => .ok (.leaf n v)

/-- Deletion without the final collapse at the root. -/
def deleteRec : LNode → Key → R (Option (LNode × Bytes))
  | .empty, _ => .ok none
  | .hash _, _ => .error .hashDelete
  | .branch cs v, k =>
    match k with
    | [] => .ok (some (.branch cs [], v))
    | d :: k' => do
      match ← deleteRec (cs d) k' with
      | none => return none
      | some (c, x) =>
        if c.isEmpty ∧ numNonEmpty cs ≤ 2 then
          match other cs d with
          | some i => return some (.ext [i] (cs i), x)
          | none => .error .expectFailed
        else do
          let c' ← tryCollapse c
          return some (.branch (upd cs d c') v, x)
  | .ext n c, k =>
    if n <+: k ∨ k <+: n then do
      match ← deleteRec c (k.drop n.length) with
      | none => return none
      | some (c', x) => do
        let r ← collapse n c'
        return some (r, x)
    else .ok none
  | .leaf n v, k => .ok (if n = k then some (.empty, v) else none)

/-- Deletion. -/
def delete (l : LNode) (k : Key) : R (LNode × Option Bytes) := do
  match ← deleteRec l k with
  | none => return (l, none)
  | some (l', x) => do
    let r ← tryCollapse l'
    return (r, some x)

/-- Collapsing with the assertion that merged keys have at most 64 nibbles. -/
def collapseA (n : Key) : LNode → R LNode
  | .branch cs v => .ok (.ext n (.branch cs v))
  | .ext m c => if n.length + m.length ≤ 64 then .ok (.ext (n ++ m) c) else .error .assertFailed
  | .leaf m v => if n.length + m.length ≤ 64 then .ok (.leaf (n ++ m) v) else .error .assertFailed
  | .hash h => .ok (.ext n (.hash h))
  | .empty => .error .impossibleExtChild

/-- `tryCollapse` with the assertion. -/
def tryCollapseA : LNode → R LNode
  | .ext n c => collapseA n c
  | .empty => .ok .empty
  | .hash h => .ok (.hash h)
  | .branch cs v => .ok (.branch cs v)
  | .leaf n v => .ok (.leaf n v)

/-- `deleteRec` with the assertion. -/
def deleteRecA : LNode → Key → R (Option (LNode × Bytes))
  | .empty, _ => .ok none
  | .hash _, _ => .error .hashDelete
  | .branch cs v, k =>
    match k with
    | [] => .ok (some (.branch cs [], v))
    | d :: k' => do
      match ← deleteRecA (cs d) k' with
      | none => return none
      | some (c, x) =>
        if c.isEmpty ∧ numNonEmpty cs ≤ 2 then
          match other cs d with
          | some i => return some (.ext [i] (cs i), x)
          | none => .error .expectFailed
        else do
          let c' ← tryCollapseA c
          return some (.branch (upd cs d c') v, x)
  | .ext n c, k =>
    if n <+: k ∨ k <+: n then do
      match ← deleteRecA c (k.drop n.length) with
      | none => return none
      | some (c', x) => do
        let r ← collapseA n c'
        return some (r, x)
    else .ok none
  | .leaf n v, k => .ok (if n = k then some (.empty, v) else none)

/-- Deletion with the assertion that merged keys have at most 64 nibbles. -/
def deleteA (l : LNode) (k : Key) : R (LNode × Option Bytes) := do
  match ← deleteRecA l k with
  | none => return (l, none)
  | some (l', x) => do
    let r ← tryCollapseA l'
    return (r, some x)

/-- Encoding without caches. -/
def enc (kec : Bytes → H256) : LNode → EncodedNode
  | .empty => .raw [0x80]
  | .hash h => .hashed h
  | .branch cs v =>
    hashIfLarge kec (rlpList (((List.finRange 16).map fun i => (enc kec (cs i)).item) ++
      [if v = [] then [0x80] else rlpValue v]))
  | .ext n c => hashIfLarge kec (rlpList [rlpValue (HP n false), (enc kec c).item])
  | .leaf n v => hashIfLarge kec (rlpList [rlpValue (HP n true), rlpValue v])

/-- Root hash. -/
def rootHash (kec : Bytes → H256) (l : LNode) : H256 := (enc kec l).toH256 kec

/-- All paths have at most `b` nibbles. -/
def Bound : LNode → Nat → Prop
  | .empty, _ => True
  | .hash _, _ => True
  | .branch cs _, b => 1 ≤ b ∧ ∀ i, Bound (cs i) (b - 1)
  | .ext n c, b => n.length ≤ b ∧ Bound c (b - n.length)
  | .leaf n _, b => n.length ≤ b

theorem Bound.mono {l : LNode} {b c : Nat} (h : l.Bound b) (hbc : b ≤ c) : l.Bound c := by
  induction l generalizing b c with
  | empty => trivial
  | hash => trivial
  | branch cs v ih => exact ⟨by have := h.1; omega, fun i => ih i (h.2 i) (by omega)⟩
  | ext n l ih => exact ⟨by have := h.1; omega, ih h.2 (by omega)⟩
  | leaf n v => exact Nat.le_trans (show _ ≤ _ from h) hbc

end LNode
end EthTrie
