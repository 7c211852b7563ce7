import Verif.Hash.Model
import Verif.Sys.CatchModel

/-!
# How many nodes a call looks at

`hash` looks at a node by reading its cache cell (`src/partial_trie.rs:297-304, 372-387`): first at the
root, then at the children of every node that it encodes.  So the number of reads of cache cells is the
number of nodes it looks at, and the work it does is proportional to it (a node is encoded, and hashed
if its encoding is long, only after its cell was read and found empty).
-/

namespace EthTrie

/-- The number of cache cells that a program reads until it returns or panics
(reads of `src/partial_trie.rs:298, 374`). -/
def Prog.reads {α β S : Type} [K : TrieKind α S] : Prog α β → S → Nat
  | .ret _, _ => 0
  | .panic _, _ => 0
  | .alloc k, s => (k (K.alloc s).1).reads (K.alloc s).2
  | .read a k, s => 1 + (k (K.cacheGet a s)).reads s
  | .write a v k, s => k.reads (K.cacheSet a v s)

/-- The number of nodes `hash()` of a handle looks at (`src/partial_trie.rs:355-357, 373-385`). -/
def Sys.hashReads {α S : Type} [K : TrieKind α S] (P : Profile) (kec : Bytes → H256) (s : Sys α S)
    (i : Nat) : Nat :=
  match s.hs[i]? with
  | none => 0
  | some t => (t.rootHash P kec).reads s.state

/-- The number of nodes that a program makes until it returns or panics (`src/partial_trie.rs:312-317`). -/
def Prog.allocs {α β S : Type} [K : TrieKind α S] : Prog α β → S → Nat
  | .ret _, _ => 0
  | .panic _, _ => 0
  | .alloc k, s => 1 + (k (K.alloc s).1).allocs (K.alloc s).2
  | .read a k, s => (k (K.cacheGet a s)).allocs s
  | .write a v k, s => k.allocs (K.cacheSet a v s)

/-- The number of nodes that a call makes (`N::new`, `src/trie_ops.rs:259-345, 363-529, 665-686, 708-767`,
`src/partial_trie.rs:206-235, 319-357, 420-429`, `src/trie_subsets.rs:212-330`). -/
def Sys.newNodes {α S : Type} [K : TrieKind α S] (P : Profile) (kec : Bytes → H256) (s : Sys α S)
    (c : Cmd) : Nat :=
  let on (i : Nat) (f : Trie α → Nat) : Nat := match s.hs[i]? with
    | none => 0
    | some t => f t
  match c with
  | .new => (newEmpty : Prog α (Trie α)).allocs s.state
  | .fromIter xs => (EthTrie.fromIter P (packEntries xs) : Prog α (Trie α)).allocs s.state
  | .insert i k v => on i fun t => (t.insert P (Nibbles.ofList k) v).allocs s.state
  | .extend i xs => on i fun t => (t.extend P (packEntries xs)).allocs s.state
  | .delete i k => on i fun t => (t.delete P (Nibbles.ofList k)).allocs s.state
  | .hash i => on i fun t => (t.rootHash P kec).allocs s.state
  | .subset i ks => on i fun t => (createTrieSubset P kec t (ks.map Nibbles.ofList)).allocs s.state
  | .subsets i kss => on i fun t =>
    (createTrieSubsets P kec t (kss.map fun ks => ks.map Nibbles.ofList)).allocs s.state
  | .clone _ | .get _ _ | .items _ | .eq _ _ => 0

section
variable {α β γ S : Type} [K : TrieKind α S]

theorem Prog.reads_bind (p : Prog α β) (f : β → Prog α γ) (s : S) :
    (p.bind f).reads s = p.reads s + match p.run s with
      | .ok (b, s') => (f b).reads s'
      | .error _ => 0 := by
  induction p generalizing s with
  | ret b => simp [Prog.bind, Prog.reads, Prog.run]
  | panic e => rfl
  | alloc k ih => exact ih _ _
  | read a k ih =>
    simp only [Prog.bind, Prog.reads, Prog.run]
    rw [ih, Nat.add_assoc]
  | write a v k ih => exact ih _

theorem Prog.reads_bind_le {p : Prog α β} {f : β → Prog α γ} {s : S} {n m : Nat} (hp : p.reads s ≤ n)
    (hf : ∀ b s', p.run s = .ok (b, s') → (f b).reads s' ≤ m) : (p.bind f).reads s ≤ n + m := by
  rw [Prog.reads_bind]
  refine Nat.add_le_add hp ?_
  split
  · exact hf _ _ ‹_›
  · exact Nat.zero_le _

end

end EthTrie
