import Verif.Sys.Model

/-!
# Panics that are caught

A panic unwinds the stack.  A program can go on after it (`std::panic::catch_unwind`, or by joining the
thread that panicked) and use the tries that it still owns.  What is in memory then is what the call had
done to it before it panicked:

* `insert` and `delete` compute a new node and assign it at the end (`src/trie_ops.rs:259-275,
  331-345`), so the handle is as it was,
* `extend` inserts one entry after the other into the node and empties the cache cell of the handle at
  the end (`src/trie_ops.rs:277-286`, `src/partial_trie.rs:328-336`), so the handle has the entries that
  were inserted before the panic, and its cell is as it was,
* new tries are not returned,
* cache cells that were written stay written.  The locks are those of `parking_lot`
  (`src/partial_trie.rs:10`), which a panic does not poison.
-/

namespace EthTrie

open Nibbles

/-- The memory when a program returns or panics. -/
def Prog.stop {α β S : Type} [K : TrieKind α S] : Prog α β → S → S
  | .ret _, s => s
  | .panic _, s => s
  | .alloc k, s => (k (K.alloc s).1).stop (K.alloc s).2
  | .read a k, s => (k (K.cacheGet a s)).stop s
  | .write a v k, s => k.stop (K.cacheSet a v s)

section
variable {α S : Type} [K : TrieKind α S] (P : Profile) (kec : Bytes → H256)

/-- The trie and the memory after the loop of `trie_extend` (`src/trie_ops.rs:277-286`), whether all
entries were inserted or inserting one of them panicked. -/
def extendUntil (t : Trie α) : List (Nibbles × ValOrHash) → S → Trie α × S
  | [], s => (t, s)
  | (k, v) :: xs, s => match (trieInsert P t k v).run s with
    | .ok (t', s') => extendUntil t' xs s'
    | .error _ => (t, (trieInsert P t k v).stop s)

/-- Do something with a handle, if there is one. -/
def Sys.onS (s : Sys α S) (i : Nat) (f : Trie α → Sys α S) : Sys α S :=
  match s.hs[i]? with
  | none => s
  | some t => f t

/-- The state of the program when a call has panicked (`src/partial_trie.rs:206-221, 230-235, 319-336,
345-353, 420-429`).  For `extend` it is also the state when the iterator over the entries panics after
it has returned all of them. -/
def Sys.afterPanic (s : Sys α S) : Cmd → Sys α S
  | .fromIter xs => ⟨(EthTrie.fromIter P (packEntries xs) : Prog α (Trie α)).stop s.state, s.hs⟩
  | .insert i k v => s.onS i fun t => ⟨(t.insert P (ofList k) v).stop s.state, s.hs⟩
  | .extend i xs => s.onS i fun t =>
    ⟨(extendUntil P t (packEntries xs) s.state).2, s.hs.set i (extendUntil P t (packEntries xs) s.state).1⟩
  | .delete i k => s.onS i fun t => ⟨(t.delete P (ofList k)).stop s.state, s.hs⟩
  | .hash i => s.onS i fun t => ⟨(t.rootHash P kec).stop s.state, s.hs⟩
  | .subset i ks => s.onS i fun t => ⟨(createTrieSubset P kec t (ks.map ofList)).stop s.state, s.hs⟩
  | .subsets i kss => s.onS i fun t =>
    ⟨(createTrieSubsets P kec t (kss.map fun ks => ks.map ofList)).stop s.state, s.hs⟩
  | _ => s

/-- A call whose panics are caught (`src/partial_trie.rs:55-109`). -/
def Sys.execC (s : Sys α S) (c : Cmd) : Sys α S × R Obs :=
  match s.exec P kec c with
  | .ok (s', o) => (s', .ok o)
  | .error e => (s.afterPanic P kec c, .error e)

/-- A program that catches all panics. -/
def Sys.runC (s : Sys α S) : List Cmd → Sys α S × List (R Obs)
  | [] => (s, [])
  | c :: cs =>
    let r := s.execC P kec c
    let r' := r.1.runC cs
    (r'.1, r.2 :: r'.2)

end

/-- A whole program that catches all panics. -/
def Kind.runC (K : Kind) (P : Profile) (kec : Bytes → H256) (cs : List Cmd) :
    Sys K.Ann K.State × List (R Obs) := K.start.runC P kec cs

end EthTrie
