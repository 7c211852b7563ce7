import Verif.Trie.Model

/-!
# Model of the derived `Serialize` and `Deserialize` implementations

`Nibbles` (`src/nibbles.rs:107`), `Node` (`src/partial_trie.rs:117`), `StandardTrie` (`:196`) and
`HashedPartialTrie` (`:287`) derive `Serialize` and `Deserialize`.  `SData` is data in the data model of
`serde`, as a self-describing format (such as JSON) carries it: structs are lists of named fields, enums
are externally tagged.  In a format that carries structs as sequences the fields come in the declared
order, which is the special case of these names in this order.

Behaviour of `serde`, `serde_derive` 1.0, `parking_lot` and `ethereum_types`, which are not part of the
repository: the derived visitor of a struct takes the fields in any order, ignores unknown ones, fails for
a field that occurs twice and for a missing one, except that a missing `Option` is `None`; `Arc`, `Box`
and `RwLock` are transparent, newtype structs too; arrays have exactly their length; `H256` and `U512` are
scalars whose textual form is not modelled.
-/

namespace EthTrie

/-- Data in `serde`'s data model, as far as it is used
(for the derives in `src/nibbles.rs:107, src/partial_trie.rs:117, 196, 287`). -/
inductive SData where
  | unit
  /-- an unsigned integer -/
  | num (n : Nat)
  /-- a `U512` -/
  | word (x : U512)
  /-- an `H256` -/
  | digest (h : H256)
  /-- `Option::None` -/
  | none
  /-- `Option::Some` -/
  | some (d : SData)
  | seq (n : Nat) (elem : Fin n → SData)
  | struct (n : Nat) (name : Fin n → String) (val : Fin n → SData)
  /-- a variant of an enum, with its contents -/
  | variant (name : String) (d : SData)

/-- Errors of deserialisation (the classes of `serde::de::Error`)
(for the derives in `src/nibbles.rs:107, src/partial_trie.rs:117, 196, 287`). -/
inductive DeError where
  | invalidType
  | invalidValue
  | invalidLength
  | unknownVariant
  | missingField
  | duplicateField
  deriving DecidableEq, Repr

namespace SData

/-- A struct with two fields (all structs of the crate that are serialised have two)
(`src/nibbles.rs:107-111, src/partial_trie.rs:287-291`). -/
def fields2 (a : String) (x : SData) (b : String) (y : SData) : SData :=
  .struct 2 (fun i => if i = 0 then a else b) (fun i => if i = 0 then x else y)

/-- `Vec<u8>` (in `src/partial_trie.rs:121-148`). -/
def ofBytes (b : Bytes) : SData := .seq b.length fun i => .num b[i].toNat

/-- `Option<H256>` (in `src/partial_trie.rs:290`). -/
def ofHash : Option H256 → SData
  | Option.none => .none
  | Option.some h => .some (.digest h)

/-- `Nibbles` (`src/nibbles.rs:107, 151-157`). -/
def ofNibbles (n : Nibbles) : SData := fields2 "count" (.num n.count) "packed" (.word n.packed)

end SData

open SData (fields2 ofBytes ofHash ofNibbles)

/-! ### `Serialize` -/

section
variable {α : Type} (cached : Bool)

/-- A wrapper around serialised node data: `StandardTrie` is a newtype (`src/partial_trie.rs:196-197`),
`HashedPartialTrie` a struct whose second field is the contents of the cell (`287-291`). -/
def serWrap (a : α) (node : SData) : Prog α SData :=
  if cached then .read a fun o => .ret (fields2 "node" node "hash" (ofHash o)) else .ret node

/-- Run `n` programs one after the other. -/
def Prog.collect {β : Type} : (n : Nat) → (Fin n → Prog α β) → Prog α (Fin n → β)
  | 0, _ => .ret fun i => i.elim0
  | n + 1, p => (p 0).bind fun x => (Prog.collect n fun i => p i.succ).bind fun f => .ret (fun i => Fin.cases x f i)

/-- `Serialize` of a trie (`src/partial_trie.rs:117-146, 196-197, 287-291`). -/
def Trie.ser : Trie α → Prog α SData
  | .empty a => serWrap cached a (.variant "Empty" .unit)
  | .hash a h => serWrap cached a (.variant "Hash" (.digest h))
  | .branch a cs v => (Prog.collect 16 fun i => Trie.ser (cs i)).bind fun ds =>
    serWrap cached a (.variant "Branch" (fields2 "children" (.seq 16 ds) "value" (ofBytes v)))
  | .ext a n c => (Trie.ser c).bind fun d =>
    serWrap cached a (.variant "Extension" (fields2 "nibbles" (ofNibbles n) "child" d))
  | .leaf a n v =>
    serWrap cached a (.variant "Leaf" (fields2 "nibbles" (ofNibbles n) "value" (ofBytes v)))

/-! ### `Deserialize` -/

/-- Sequencing of programs with errors. -/
def Prog.andThen {β γ : Type} (p : Prog α (Except DeError β)) (f : β → Prog α (Except DeError γ)) :
    Prog α (Except DeError γ) :=
  p.bind fun
    | .error e => .ret (.error e)
    | .ok b => f b

/-- Run `n` programs one after the other, until one of them fails. -/
def Prog.collectE {β : Type} : (n : Nat) → (Fin n → Prog α (Except DeError β)) →
    Prog α (Except DeError (Fin n → β))
  | 0, _ => .ret (.ok fun i => i.elim0)
  | n + 1, p => (p 0).andThen fun x => (Prog.collectE n fun i => p i.succ).andThen fun f =>
    .ret (.ok (fun i => Fin.cases x f i))

/-- The loop of the derived `visit_map` of a struct with the fields `a` and `b`: the fields with the
given indices remain to be read (`src/nibbles.rs:107, src/partial_trie.rs:117, 287`). -/
def visit2 {β γ : Type} {n : Nat} (a : String) (pa : Fin n → Prog α (Except DeError β)) (b : String)
    (pb : Fin n → Prog α (Except DeError γ)) (name : Fin n → String) :
    List (Fin n) → Option β → Option γ → Prog α (Except DeError (Option β × Option γ))
  | [], x, y => .ret (.ok (x, y))
  | i :: is, x, y =>
    if name i = a then
      match x with
      | some _ => .ret (.error .duplicateField)
      | none => (pa i).andThen fun x => visit2 a pa b pb name is (some x) y
    else if name i = b then
      match y with
      | some _ => .ret (.error .duplicateField)
      | none => (pb i).andThen fun y => visit2 a pa b pb name is x (some y)
    else visit2 a pa b pb name is x y

/-- The whole of `visit_map`; both fields are needed (`src/nibbles.rs:107, src/partial_trie.rs:117, 287`). -/
def both {β γ : Type} (r : Option β × Option γ) : Except DeError (β × γ) :=
  match r with
  | (some x, some y) => .ok (x, y)
  | _ => .error .missingField

/-- `u8` (in `src/partial_trie.rs:121-148`). -/
def deU8 : SData → Except DeError UInt8
  | .num n => if n < 256 then .ok (UInt8.ofNat n) else .error .invalidValue
  | _ => .error .invalidType

/-- `Vec<u8>`: the elements with the given indices remain to be read (in `src/partial_trie.rs:121-148`). -/
def deElems {n : Nat} (elem : Fin n → SData) : List (Fin n) → Except DeError Bytes
  | [] => .ok []
  | i :: is => do
    let x ← deU8 (elem i)
    let xs ← deElems elem is
    return x :: xs

/-- `Vec<u8>` (in `src/partial_trie.rs:121-148`). -/
def deBytes : SData → Except DeError Bytes
  | .seq n elem => deElems elem (List.finRange n)
  | _ => .error .invalidType

/-- `usize` (64-bit) (in `src/nibbles.rs:107-111`). -/
def deUsize : SData → Except DeError Nat
  | .num n => if n < 2 ^ 64 then .ok n else .error .invalidValue
  | _ => .error .invalidType

/-- `U512` (in `src/nibbles.rs:107-111`). -/
def deWord : SData → Except DeError U512
  | .word x => .ok x
  | _ => .error .invalidType

/-- `H256` (in `src/partial_trie.rs:121-148`). -/
def deDigest : SData → Except DeError H256
  | .digest h => .ok h
  | _ => .error .invalidType

/-- `Arc<RwLock<Option<H256>>>` before the cell is made (`src/partial_trie.rs:290`). -/
def deCell : SData → Except DeError (Option H256)
  | .none => .ok none
  | .some d => (deDigest d).map some
  | _ => .error .invalidType

/-- `Deserialize` of `Nibbles` (`src/nibbles.rs:107, 151-157`): nothing is checked about the two fields. -/
def deNibbles : SData → Prog α (Except DeError Nibbles)
  | .struct n name val =>
    (visit2 "count" (fun i => .ret (deUsize (val i))) "packed" (fun i => .ret (deWord (val i))) name
      (List.finRange n) none none).andThen fun r =>
    .ret ((both r).map fun (c, p) => ⟨c, p⟩)
  | _ => .ret (.error .invalidType)

/-- A node together with what the cell of its wrapper is to hold (`src/partial_trie.rs:287-291`). -/
abbrev Pending (α : Type) := (α → Trie α) × Option H256

/-- The wrapper is made after its contents, with a new cell (`src/partial_trie.rs:287-291`). -/
def Pending.finish (r : Pending α) : Prog α (Except DeError (Trie α)) :=
  .alloc fun c => match r.2 with
    | none => .ret (.ok (r.1 c))
    | some h => .write c (some h) (.ret (.ok (r.1 c)))

mutual

/-- `Deserialize` of `StandardTrie` and `HashedPartialTrie` (`src/partial_trie.rs:196-197, 287-291`)
without the last step, `Pending.finish`. -/
def deWrap : SData → Prog α (Except DeError (Pending α))
  | .struct n name val =>
    if cached then
      (visit2 "node" (fun i => deNode (val i)) "hash" (fun i => .ret (deCell (val i))) name
        (List.finRange n) none none).andThen fun r =>
      match r with
      | (some node, o) => .ret (.ok (node, o.getD none))
      | (none, _) => .ret (.error .missingField)
    else .ret (.error .invalidType)
  | .variant name d =>
    if cached then .ret (.error .invalidType)
    else (deVariant name d).andThen fun node => .ret (.ok (node, none))
  | _ => .ret (.error .invalidType)

/-- `Deserialize` of `Node` (`src/partial_trie.rs:117-146`). -/
def deNode : SData → Prog α (Except DeError (α → Trie α))
  | .variant name d => deVariant name d
  | _ => .ret (.error .invalidType)

/-- The contents of a variant of `Node` (`src/partial_trie.rs:117-148`). -/
def deVariant (variant : String) : SData → Prog α (Except DeError (α → Trie α))
  | .unit =>
    if variant = "Empty" then .ret (.ok fun a => .empty a)
    else if variant = "Hash" ∨ variant = "Branch" ∨ variant = "Extension" ∨ variant = "Leaf" then
      .ret (.error .invalidType)
    else .ret (.error .unknownVariant)
  | .digest h =>
    if variant = "Hash" then .ret (.ok fun a => .hash a h)
    else if variant = "Empty" ∨ variant = "Branch" ∨ variant = "Extension" ∨ variant = "Leaf" then
      .ret (.error .invalidType)
    else .ret (.error .unknownVariant)
  | .struct n name val =>
    if variant = "Branch" then
      (visit2 "children" (fun i => deChildren (val i)) "value" (fun i => .ret (deBytes (val i))) name
        (List.finRange n) none none).andThen fun r =>
      .ret ((both r).map fun (cs, v) => fun a => .branch a cs v)
    else if variant = "Extension" then
      (visit2 "nibbles" (fun i => deNibbles (val i)) "child"
        (fun i => (deWrap (val i)).andThen fun r => r.finish) name
        (List.finRange n) none none).andThen fun r =>
      .ret ((both r).map fun (k, c) => fun a => .ext a k c)
    else if variant = "Leaf" then
      (visit2 "nibbles" (fun i => deNibbles (val i)) "value" (fun i => .ret (deBytes (val i))) name
        (List.finRange n) none none).andThen fun r =>
      .ret ((both r).map fun (k, v) => fun a => .leaf a k v)
    else if variant = "Empty" ∨ variant = "Hash" then .ret (.error .invalidType)
    else .ret (.error .unknownVariant)
  | _ =>
    if variant = "Empty" ∨ variant = "Hash" ∨ variant = "Branch" ∨ variant = "Extension" ∨
      variant = "Leaf" then .ret (.error .invalidType)
    else .ret (.error .unknownVariant)

/-- `[WrappedNode<T>; 16]` (`src/partial_trie.rs:121-148`). -/
def deChildren : SData → Prog α (Except DeError (Fin 16 → Trie α))
  | .seq n elem =>
    if h : n = 16 then
      Prog.collectE 16 fun i => (deWrap (elem (i.cast h.symm))).andThen fun r => r.finish
    else .ret (.error .invalidLength)
  | _ => .ret (.error .invalidType)

end

/-- `Deserialize` of `StandardTrie` and `HashedPartialTrie` (`src/partial_trie.rs:196-197, 287-291`). -/
def Trie.de (d : SData) : Prog α (Except DeError (Trie α)) :=
  (deWrap cached d).andThen fun r => r.finish

end

end EthTrie
