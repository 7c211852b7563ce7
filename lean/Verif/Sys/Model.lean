import Verif.Subset.Model
import Verif.Trie.Iter
import Verif.Trie.Kinds

/-!
# Programs using the crate

A program holds any number of tries of one type in variables (*handles*) and calls the public
functions on them.  Keys are nibble lists; they are packed with `ofList` before they are passed to
the model (every well-formed `Nibbles` value is of this form).

The calls are those of `trait PartialTrie` (`src/partial_trie.rs:36-101`), `Clone`, `==`,
`FromIterator` and the functions of `src/trie_subsets.rs`.  A panic ends the program.
-/

namespace EthTrie

open Nibbles

/-- A call (the public functions, `src/partial_trie.rs:55-109, src/trie_subsets.rs:206-251`). -/
inductive Cmd where
  /-- `N::default()` -/
  | new
  /-- `N::from_iter(xs)` -/
  | fromIter (xs : List (Key × ValOrHash))
  /-- `t.clone()` -/
  | clone (i : Nat)
  /-- `t.insert(k, v)` -/
  | insert (i : Nat) (k : Key) (v : ValOrHash)
  /-- `t.extend(xs)` -/
  | extend (i : Nat) (xs : List (Key × ValOrHash))
  /-- `t.delete(k)` -/
  | delete (i : Nat) (k : Key)
  /-- `t.get(k)` -/
  | get (i : Nat) (k : Key)
  /-- `t.hash()` -/
  | hash (i : Nat)
  /-- `t.items().collect()` -/
  | items (i : Nat)
  /-- `t == u` -/
  | eq (i j : Nat)
  /-- `create_trie_subset(&t, ks)` -/
  | subset (i : Nat) (ks : List Key)
  /-- `create_trie_subsets(&t, kss)` -/
  | subsets (i : Nat) (kss : List (List Key))
  deriving DecidableEq

/-- The handle a call takes as `&mut self` (`src/partial_trie.rs:41-60`). -/
def Cmd.mutates : Cmd → Option Nat
  | .insert i _ _ | .extend i _ | .delete i _ => some i
  | _ => none

/-- What a call returns.  New tries are appended to the handles
(`src/partial_trie.rs:55-109, src/trie_subsets.rs:206-251`). -/
inductive Obs where
  | unit
  /-- the program has no such handle; nothing was called -/
  | noHandle
  | val (o : Option Bytes)
  | root (h : H256)
  | items (xs : List Item)
  | bool (b : Bool)
  | err (e : SubsetError)
  deriving DecidableEq

/-- A list of entries with packed keys. -/
def packEntries (xs : List (Key × ValOrHash)) : List (Nibbles × ValOrHash) :=
  xs.map fun x => (ofList x.1, x.2)

/-- The state of a program: the state of the trie type and the handles. -/
structure Sys (α S : Type) where
  state : S
  hs : List (Trie α)

section
variable {α S : Type} [K : TrieKind α S] (P : Profile) (kec : Bytes → H256)

/-- Call something on a handle. -/
def Sys.on (s : Sys α S) (i : Nat) (f : Trie α → R (Sys α S × Obs)) : R (Sys α S × Obs) :=
  match s.hs[i]? with
  | none => .ok (s, .noHandle)
  | some t => f t

/-- One call (`src/partial_trie.rs:200-258, 311-385`). -/
def Sys.exec (s : Sys α S) : Cmd → R (Sys α S × Obs)
  | .new => do
    let (t, st) ← (newEmpty : Prog α (Trie α)).run s.state
    return (⟨st, s.hs ++ [t]⟩, .unit)
  | .fromIter xs => do
    let (t, st) ← (EthTrie.fromIter P (packEntries xs) : Prog α (Trie α)).run s.state
    return (⟨st, s.hs ++ [t]⟩, .unit)
  | .clone i => s.on i fun t => return (⟨s.state, s.hs ++ [t]⟩, .unit)
  | .insert i k v => s.on i fun t => do
    let (t', st) ← t.insert P (ofList k) v s.state
    return (⟨st, s.hs.set i t'⟩, .unit)
  | .extend i xs => s.on i fun t => do
    let (t', st) ← t.extend P (packEntries xs) s.state
    return (⟨st, s.hs.set i t'⟩, .unit)
  | .delete i k => s.on i fun t => do
    let ((t', o), st) ← t.delete P (ofList k) s.state
    return (⟨st, s.hs.set i t'⟩, .val o)
  | .get i k => s.on i fun t => do return (s, .val (← t.get P (ofList k)))
  | .hash i => s.on i fun t => do
    let (h, st) ← t.rootHash P kec s.state
    return (⟨st, s.hs⟩, .root h)
  | .items i => s.on i fun t => do return (s, .items (← t.items P))
  | .eq i j => s.on i fun t => s.on j fun u => return (s, .bool (t.beq u))
  | .subset i ks => s.on i fun t => do
    let (r, st) ← createTrieSubset P kec t (ks.map ofList) s.state
    match r with
    | .ok t' => return (⟨st, s.hs ++ [t']⟩, .unit)
    | .error e => return (⟨st, s.hs⟩, .err e)
  | .subsets i kss => s.on i fun t => do
    let (r, st) ← createTrieSubsets P kec t (kss.map fun ks => ks.map ofList) s.state
    match r with
    | .ok ts => return (⟨st, s.hs ++ ts⟩, .unit)
    | .error e => return (⟨st, s.hs⟩, .err e)

/-- A sequence of calls and what they return. -/
def Sys.run (s : Sys α S) : List Cmd → R (Sys α S × List Obs)
  | [] => .ok (s, [])
  | c :: cs => do
    let (s', o) ← s.exec P kec c
    let (s'', os) ← Sys.run s' cs
    return (s'', o :: os)

end

/-- The start of a program that uses tries of type `K`. -/
def Kind.start (K : Kind) : Sys K.Ann K.State := ⟨K.init, []⟩

/-- Run a program from the start. -/
def Kind.run (K : Kind) (P : Profile) (kec : Bytes → H256) (cs : List Cmd) :
    R (Sys K.Ann K.State × List Obs) := K.start.run P kec cs

end EthTrie
