import Verif.Sys.Model
import Verif.Trie.ExtOK

/-!
# Programs on list-keyed tries

The same programs on `LNode`s.  `plainExec` has no cache cells.  `PSys.exec` has the cache cells of
roots, but not those of inner nodes: every handle has a *family*, clones share the family of the
original and with it the cache cell of the root.
-/

namespace EthTrie

open Nibbles

/-- The state of a program: the handles with their families, the cells of the families, and the
next new family. -/
structure PSys where
  hs : List (LNode × Nat)
  filled : Nat → Option H256
  next : Nat

namespace PSys

/-- The start of a program. -/
def start : PSys := ⟨[], fun _ => none, 0⟩

/-- Insert several entries. -/
def extendL (l : LNode) : List (Key × ValOrHash) → R LNode
  | [] => .ok l
  | (k, v) :: xs => do
    let l' ← l.insert k v
    extendL l' xs

/-- The subsets for several key lists. -/
def subsetsL (P : Profile) (kec : Bytes → H256) (t : LTracked) :
    List (List Key) → R (Except Key (List LNode))
  | [] => .ok (.ok [])
  | ks :: kss => do
    match ← t.markAll P ks with
    | .error e => return .error e
    | .ok t' =>
      match ← subsetsL P kec t'.reset kss with
      | .error e => return .error e
      | .ok rs => return .ok (t'.subset kec :: rs)

end PSys

/-- Call something on a list-keyed trie. -/
def onPlain (ls : List LNode) (i : Nat) (f : LNode → R (List LNode × Obs)) :
    R (List LNode × Obs) :=
  match ls[i]? with
  | none => .ok (ls, .noHandle)
  | some t => f t

open Classical in
/-- One call on list-keyed tries. -/
noncomputable def plainExec (P : Profile) (kec : Bytes → H256) (ls : List LNode) :
    Cmd → R (List LNode × Obs)
  | .new => .ok (ls ++ [.empty], .unit)
  | .fromIter xs => do
    let l ← PSys.extendL .empty xs
    return (ls ++ [l], .unit)
  | .clone i => onPlain ls i fun l => .ok (ls ++ [l], .unit)
  | .insert i k v => onPlain ls i fun l => do
    let l' ← l.insert k v
    return (ls.set i l', .unit)
  | .extend i xs => onPlain ls i fun l => do
    let l' ← PSys.extendL l xs
    return (ls.set i l', .unit)
  | .delete i k => onPlain ls i fun l => do
    let (l', o) ← l.deleteA k
    return (ls.set i l', .val o)
  | .get i k => onPlain ls i fun l => do return (ls, .val (← l.get P k))
  | .hash i => onPlain ls i fun l => .ok (ls, .root (l.rootHash kec))
  | .items i => onPlain ls i fun l => do return (ls, .items (packItems (← l.itemsA)))
  | .eq i j => onPlain ls i fun l => onPlain ls j fun l' => .ok (ls, .bool (decide (l = l')))
  | .subset i ks => onPlain ls i fun l => do
    match ← (LTracked.new l).markAll P ks with
    | .error k => return (ls, .err (.unexpectedKey (ofList k)))
    | .ok tr => return (ls ++ [tr.subset kec], .unit)
  | .subsets i kss => onPlain ls i fun l => do
    match ← PSys.subsetsL P kec (LTracked.new l) kss with
    | .error k => return (ls, .err (.unexpectedKey (ofList k)))
    | .ok rs => return (ls ++ rs, .unit)

/-- A sequence of calls. -/
noncomputable def plainRun (P : Profile) (kec : Bytes → H256) (ls : List LNode) :
    List Cmd → R (List LNode × List Obs)
  | [] => .ok (ls, [])
  | c :: cs => do
    let (ls', o) ← plainExec P kec ls c
    let (ls'', os) ← plainRun P kec ls' cs
    return (ls'', o :: os)

/-- The subset for a marked trie whose root has the cell contents `cell`, and the cell afterwards;
`C` says whether there are cells. -/
def LTracked.subsetX (C : Bool) (kec : Bytes → H256) (cell : Option H256) (t : LTracked) :
    LNode × Option H256 :=
  if t.touched then (t.subset kec, cell)
  else match cell with
    | some h => (.hash h, some h)
    | none => (t.subset kec, if C then t.away kec else none)

namespace PSys

/-- The subsets for several key lists, and the cell of the root afterwards. -/
def subsetsX (P : Profile) (C : Bool) (kec : Bytes → H256) (t : LTracked) (cell : Option H256) :
    List (List Key) → R (Except Key (List LNode) × Option H256)
  | [] => .ok (.ok [], cell)
  | ks :: kss => do
    match ← t.markAll P ks with
    | .error e => return (.error e, cell)
    | .ok t' =>
      let (l, cell') := t'.subsetX C kec cell
      match ← subsetsX P C kec t'.reset cell' kss with
      | (.error e, cell'') => return (.error e, cell'')
      | (.ok rs, cell'') => return (.ok (l :: rs), cell'')

variable (P : Profile) (C : Bool) (kec : Bytes → H256)

/-- Call something on a handle. -/
def on (s : PSys) (i : Nat) (f : LNode × Nat → R (PSys × Obs)) : R (PSys × Obs) :=
  match s.hs[i]? with
  | none => .ok (s, .noHandle)
  | some t => f t

/-- Append handles of new families. -/
def push (s : PSys) : List LNode → PSys
  | [] => s
  | l :: ls => push ⟨s.hs ++ [(l, s.next)], s.filled, s.next + 1⟩ ls

open Classical in
/-- One call. -/
noncomputable def exec (s : PSys) : Cmd → R (PSys × Obs)
  | .new => .ok (s.push [.empty], .unit)
  | .fromIter xs => do
    let l ← extendL .empty xs
    return (s.push [l], .unit)
  | .clone i => s.on i fun t => .ok (⟨s.hs ++ [t], s.filled, s.next⟩, .unit)
  | .insert i k v => s.on i fun t => do
    let l ← t.1.insert k v
    return (⟨s.hs.set i (l, t.2), upd s.filled t.2 none, s.next⟩, .unit)
  | .extend i xs => s.on i fun t => do
    let l ← extendL t.1 xs
    return (⟨s.hs.set i (l, t.2), upd s.filled t.2 none, s.next⟩, .unit)
  | .delete i k => s.on i fun t => do
    let (l, o) ← t.1.deleteA k
    return (⟨s.hs.set i (l, t.2), upd s.filled t.2 none, s.next⟩, .val o)
  | .get i k => s.on i fun t => do return (s, .val (← t.1.get P k))
  | .hash i => s.on i fun t => .ok (s, .root ((s.filled t.2).getD (t.1.rootHash kec)))
  | .items i => s.on i fun t => do return (s, .items (packItems (← t.1.itemsA)))
  | .eq i j => s.on i fun t => s.on j fun u => .ok (s, .bool (decide (t.1 = u.1)))
  | .subset i ks => s.on i fun t => do
    match ← (LTracked.new t.1).markAll P ks with
    | .error k => return (s, .err (.unexpectedKey (ofList k)))
    | .ok tr =>
      let (l, cell) := tr.subsetX C kec (s.filled t.2)
      return (PSys.push ⟨s.hs, upd s.filled t.2 cell, s.next⟩ [l], .unit)
  | .subsets i kss => s.on i fun t => do
    let (r, cell) ← subsetsX P C kec (LTracked.new t.1) (s.filled t.2) kss
    match r with
    | .error k =>
      return (⟨s.hs, upd s.filled t.2 cell, s.next⟩, .err (.unexpectedKey (ofList k)))
    | .ok ls => return (PSys.push ⟨s.hs, upd s.filled t.2 cell, s.next⟩ ls, .unit)

/-- A sequence of calls. -/
noncomputable def run (s : PSys) : List Cmd → R (PSys × List Obs)
  | [] => .ok (s, [])
  | c :: cs => do
    let (s', o) ← s.exec P C kec c
    let (s'', os) ← run s' cs
    return (s'', o :: os)

end PSys

/-- All keys passed in a call have at most 127 nibbles. -/
def Cmd.Short : Cmd → Prop
  | .fromIter xs => ∀ x ∈ xs, x.1.length ≤ 127
  | .insert _ k _ => k.length ≤ 127
  | .extend _ xs => ∀ x ∈ xs, x.1.length ≤ 127
  | .delete _ k => k.length ≤ 127
  | .get _ k => k.length ≤ 127
  | .subset _ ks => ∀ k ∈ ks, k.length ≤ 127
  | .subsets _ kss => ∀ ks ∈ kss, ∀ k ∈ ks, k.length ≤ 127
  | _ => True

end EthTrie
