import Verif.Rust

/-!
# Programs that use cache cells

The functions of the crate touch shared memory only through cache cells: they make new ones, read
them and write them.  Each of these is one atomic step (every access takes the `RwLock` of one cell
and releases it before anything else happens, `src/partial_trie.rs:297-308, 372-387`; the guard made
in the condition of `if let` is dropped at the end of that statement).  A `Prog` is a computation
whose steps are explicit, so that the same definition serves for sequential execution (`Prog.run`)
and for threads whose steps are interleaved (`Verif/Conc`).
-/

namespace EthTrie

/-- What distinguishes the two trie types: how `N::new` makes a wrapper, and the cache cell
operations (`src/partial_trie.rs:201-258` and `295-387`). -/
class TrieKind (α : Type) (S : outParam Type) where
  /-- `N::new`: the annotation of a new wrapper -/
  alloc : S → α × S
  /-- `*self.hash.read()` -/
  cacheGet : α → S → Option H256
  /-- `*self.hash.write() = v` -/
  cacheSet : α → Option H256 → S → S

/-- `StandardTrie` (`src/partial_trie.rs:193-258`): no cache.  Reading gives nothing and writing does
nothing. -/
instance : TrieKind Unit Unit where
  alloc := fun s => ((), s)
  cacheGet := fun _ _ => none
  cacheSet := fun _ _ s => s

/-- Reference to a cache cell, `Arc<RwLock<Option<H256>>>` (`src/partial_trie.rs:290`). -/
structure CellId where
  id : Nat
  deriving DecidableEq, Repr

/-- The heap of cache cells.  Cells are never freed in the model (after the last `Arc` is dropped a
cell is unobservable) (`src/partial_trie.rs:290`). -/
structure Heap where
  /-- the next free cell -/
  next : Nat
  /-- contents of the cells -/
  cell : Nat → Option H256

/-- The empty heap (`src/partial_trie.rs:290`). -/
def Heap.init : Heap := ⟨0, fun _ => none⟩

/-- `HashedPartialTrie` (`src/partial_trie.rs:284-387`): `new` allocates a fresh cell holding `None`
(`312-317`). -/
instance : TrieKind CellId Heap where
  alloc := fun s => (⟨s.next⟩, ⟨s.next + 1, upd s.cell s.next none⟩)
  cacheGet := fun a s => s.cell a.id
  cacheSet := fun a v s => ⟨s.next, upd s.cell a.id v⟩

/-- Programs that use cache cells (reads and writes of `src/partial_trie.rs:298, 307, 315, 374`). -/
inductive Prog (α β : Type) where
  | ret (b : β)
  | panic (e : Panic)
  /-- `N::new(..)`: the annotation of a new wrapper -/
  | alloc (k : α → Prog α β)
  /-- `*cell.read()` -/
  | read (a : α) (k : Option H256 → Prog α β)
  /-- `*cell.write() = v` -/
  | write (a : α) (v : Option H256) (k : Prog α β)

namespace Prog
variable {α β γ : Type}

/-- Sequencing of programs. -/
def bind : Prog α β → (β → Prog α γ) → Prog α γ
  | .ret b, f => f b
  | .panic e, _ => .panic e
  | .alloc k, f => .alloc fun a => (k a).bind f
  | .read a k, f => .read a fun o => (k o).bind f
  | .write a v k, f => .write a v (k.bind f)

instance : Monad (Prog α) where
  pure := .ret
  bind := Prog.bind

/-- A stateless computation as a program. -/
def lift : R β → Prog α β
  | .ok b => .ret b
  | .error e => .panic e

/-- Sequential execution. -/
def run {S : Type} [K : TrieKind α S] : Prog α β → M S β
  | .ret b => fun s => .ok (b, s)
  | .panic e => fun _ => .error e
  | .alloc k => fun s => run (k (K.alloc s).1) (K.alloc s).2
  | .read a k => fun s => run (k (K.cacheGet a s)) s
  | .write a v k => fun s => run k (K.cacheSet a v s)

/-- A program applied to a state is its sequential execution. -/
instance {S : Type} [TrieKind α S] : CoeFun (Prog α β) (fun _ => S → R (β × S)) := ⟨run⟩

/-- Run the programs of a list one after the other. -/
def seq : List (Prog α β) → Prog α (List β)
  | [] => .ret []
  | p :: ps => p.bind fun b => (seq ps).bind fun bs => .ret (b :: bs)

theorem run_bind {S : Type} [K : TrieKind α S] (p : Prog α β) (f : β → Prog α γ) :
    ((p.bind f).run : M S γ) = (p.run : M S β) >>= fun b => (f b).run := by
  induction p with
  | ret b => rfl
  | panic e => rfl
  | alloc k ih => funext s; simp only [Prog.bind, Prog.run, ih]; rfl
  | read a k ih => funext s; simp only [Prog.bind, Prog.run, ih]; rfl
  | write a v k ih => funext s; simp only [Prog.bind, Prog.run, ih]; rfl

/-- Running a program that starts with another one. -/
theorem bind_run {S : Type} [K : TrieKind α S] (p : Prog α β) (f : β → Prog α γ) (s : S) :
    (p >>= f).run s = (match p.run s with
      | .error e => .error e
      | .ok (b, s') => (f b).run s') := by
  show (p.bind f).run s = _
  rw [run_bind, M.bind_run]
  cases p.run s <;> rfl

@[simp] theorem pure_run {S : Type} [K : TrieKind α S] (b : β) (s : S) :
    (Pure.pure b : Prog α β).run s = .ok (b, s) := rfl
@[simp] theorem lift_run_ok {S : Type} [K : TrieKind α S] (b : β) (s : S) :
    (Prog.lift (.ok b) : Prog α β).run s = .ok (b, s) := rfl
@[simp] theorem lift_run_err {S : Type} [K : TrieKind α S] (e : Panic) (s : S) :
    (Prog.lift (.error e) : Prog α β).run s = .error e := rfl

end Prog
end EthTrie
