import Verif.Hash.Model

/-!
# Model of several threads that hash tries

`HashedPartialTrie` can be shared between threads: `hash` takes `&self` and the cache cells are behind
`Arc<RwLock<_>>` (`src/partial_trie.rs:288-291`).  A thread is a program in the sense of
`Verif/Hash/Model.lean`.  Each access to a cell is one atomic step: `get_hash` and `hash_intern`
release the lock before they do anything else (`src/partial_trie.rs:297-308, 372-387`; the guard made
in the condition of `if let` is dropped at the end of that statement), so a thread never holds a lock
while it waits for another one.
-/

namespace EthTrie

variable {α S β : Type}

/-- The cells and what the threads still have to do (the cells of `src/partial_trie.rs:290`). -/
structure Threads (α S β : Type) where
  state : S
  threads : List (Prog α β)

namespace Threads

/-- One thread makes one step (a read or write of `src/partial_trie.rs:298, 307, 374`). -/
inductive Step [K : TrieKind α S] : Threads α S β → Threads α S β → Prop
  | alloc (s : S) (ps : List (Prog α β)) (j : Nat) (k : α → Prog α β)
      (h : ps[j]? = some (.alloc k)) : Step ⟨s, ps⟩ ⟨(K.alloc s).2, ps.set j (k (K.alloc s).1)⟩
  | read (s : S) (ps : List (Prog α β)) (j : Nat) (a : α) (k : Option H256 → Prog α β)
      (h : ps[j]? = some (.read a k)) : Step ⟨s, ps⟩ ⟨s, ps.set j (k (K.cacheGet a s))⟩
  | write (s : S) (ps : List (Prog α β)) (j : Nat) (a : α) (v : Option H256) (k : Prog α β)
      (h : ps[j]? = some (.write a v k)) : Step ⟨s, ps⟩ ⟨K.cacheSet a v s, ps.set j k⟩

/-- The threads make `n` steps, in any order. -/
inductive Steps [K : TrieKind α S] : Nat → Threads α S β → Threads α S β → Prop
  | nil (c : Threads α S β) : Steps 0 c c
  | cons {n : Nat} {c c' c'' : Threads α S β} (h : Step c c') (hs : Steps n c' c'') :
      Steps (n + 1) c c''

end Threads
end EthTrie
