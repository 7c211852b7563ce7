import Verif.Sys.Model

/-!
# Model of several threads that call any function of the crate

The threads share the handles of a program (`Sys`).  A call of a thread is a program whose steps are
single accesses to cache cells (`Cmd.prog`), and the steps of different threads are interleaved in any
way.  Rust's borrow rules are part of the model: while a call that mutates a trie (`&mut self`) runs,
no other call uses this trie, and while a call reads a trie (`&self`), no other call mutates it.  Calls
on different tries may run at the same time even if the tries share cache cells (clones and subsets
share the cells of common nodes).

A call that has ended changes the handles and appends an entry to the log in one step.  This is when
the thread gets the result, and when the borrow ends.  A call that panics has no result.  The borrow ends
and the thread goes on (it catches the panic, or another one is started); the handles are as they were
(`Verif/Sys/CatchModel.lean`), except that a trie which `extend` was working on is never used again.
-/

namespace EthTrie

open Nibbles

/-- The result of a call: the handle whose trie it replaces, the new handles, and what it returns. -/
structure Reply (α : Type) where
  upd : Option (Nat × Trie α)
  new : List (Trie α)
  obs : Obs

/-- The handles after a call. -/
def Reply.apply {α : Type} (r : Reply α) (hs : List (Trie α)) : List (Trie α) :=
  (match r.upd with
    | none => hs
    | some (i, t) => hs.set i t) ++ r.new

/-- The handles a call uses. -/
def Cmd.uses : Cmd → List Nat
  | .new | .fromIter _ => []
  | .clone i | .insert i _ _ | .extend i _ | .delete i _ | .get i _ | .hash i | .items i
  | .subset i _ | .subsets i _ => [i]
  | .eq i j => [i, j]

/-- Calls that change the trie before they return. -/
def Cmd.isExtend : Cmd → Bool
  | .extend _ _ => true
  | _ => false

/-- The borrow rules: two calls that may run at the same time. -/
def Cmd.Compatible (c d : Cmd) : Prop :=
  (∀ i, c.mutates = some i → i ∉ d.uses) ∧ ∀ i, d.mutates = some i → i ∉ c.uses

section
variable {α S : Type} [K : TrieKind α S] (P : Profile) (kec : Bytes → H256)

/-- Call something on a handle. -/
def onHandle (hs : List (Trie α)) (i : Nat) (f : Trie α → Prog α (Reply α)) : Prog α (Reply α) :=
  match hs[i]? with
  | none => .ret ⟨none, [], .noHandle⟩
  | some t => f t

/-- One call as a program (compare `Sys.exec`, which runs it without interruption:
`Sys.exec_eq_prog`).  Calls that do not access cache cells end at once. -/
def Cmd.prog (hs : List (Trie α)) : Cmd → Prog α (Reply α)
  | .new => do return ⟨none, [← newEmpty], .unit⟩
  | .fromIter xs => do return ⟨none, [← EthTrie.fromIter P (packEntries xs)], .unit⟩
  | .clone i => onHandle hs i fun t => return ⟨none, [t], .unit⟩
  | .insert i k v => onHandle hs i fun t => do
    return ⟨some (i, ← t.insert P (ofList k) v), [], .unit⟩
  | .extend i xs => onHandle hs i fun t => do
    return ⟨some (i, ← t.extend P (packEntries xs)), [], .unit⟩
  | .delete i k => onHandle hs i fun t => do
    let (t', o) ← t.delete P (ofList k)
    return ⟨some (i, t'), [], .val o⟩
  | .get i k => onHandle hs i fun t => do
    return ⟨none, [], .val (← Prog.lift (t.get P (ofList k)))⟩
  | .hash i => onHandle hs i fun t => do return ⟨none, [], .root (← t.rootHash P kec)⟩
  | .items i => onHandle hs i fun t => do return ⟨none, [], .items (← Prog.lift (t.items P))⟩
  | .eq i j => onHandle hs i fun t => onHandle hs j fun u => return ⟨none, [], .bool (t.beq u)⟩
  | .subset i ks => onHandle hs i fun t => do
    match ← createTrieSubset P kec t (ks.map ofList) with
    | .ok t' => return ⟨none, [t'], .unit⟩
    | .error e => return ⟨none, [], .err e⟩
  | .subsets i kss => onHandle hs i fun t => do
    match ← createTrieSubsets P kec t (kss.map fun ks => ks.map ofList) with
    | .ok ts => return ⟨none, ts, .unit⟩
    | .error e => return ⟨none, [], .err e⟩

end

/-- The state of a concurrent program: cells and handles; for each thread, the call it is in and what
remains to be done of it; the calls that have ended and what they returned. -/
structure Conc (α S : Type) where
  sys : Sys α S
  threads : List (Option (Cmd × Prog α (Reply α)))
  log : List (Cmd × Obs)

namespace Conc
variable {α S : Type} [K : TrieKind α S] (P : Profile) (kec : Bytes → H256)

/-- Thread `j` is in the call `c`, and `p` remains to be done. -/
def Runs (x : Conc α S) (j : Nat) (c : Cmd) (p : Prog α (Reply α)) : Prop :=
  x.threads[j]? = some (some (c, p))

/-- A step of a thread inside a call. -/
inductive Inner : Conc α S → Conc α S → Prop
  | alloc (x : Conc α S) (j : Nat) (c : Cmd) (k : α → Prog α (Reply α)) (h : x.Runs j c (.alloc k)) :
      Inner x ⟨⟨(K.alloc x.sys.state).2, x.sys.hs⟩,
        x.threads.set j (some (c, k (K.alloc x.sys.state).1)), x.log⟩
  | read (x : Conc α S) (j : Nat) (c : Cmd) (a : α) (k : Option H256 → Prog α (Reply α))
      (h : x.Runs j c (.read a k)) :
      Inner x ⟨x.sys, x.threads.set j (some (c, k (K.cacheGet a x.sys.state))), x.log⟩
  | write (x : Conc α S) (j : Nat) (c : Cmd) (a : α) (v : Option H256) (k : Prog α (Reply α))
      (h : x.Runs j c (.write a v k)) :
      Inner x ⟨⟨K.cacheSet a v x.sys.state, x.sys.hs⟩, x.threads.set j (some (c, k)), x.log⟩
  | finish (x : Conc α S) (j : Nat) (c : Cmd) (r : Reply α) (h : x.Runs j c (.ret r)) :
      Inner x ⟨⟨x.sys.state, r.apply x.sys.hs⟩, x.threads.set j none, x.log ++ [(c, r.obs)]⟩
  /-- a call other than `extend` has panicked, and its borrow ends -/
  | unwind (x : Conc α S) (j : Nat) (c : Cmd) (e : Panic) (h : x.Runs j c (.panic e))
      (hm : c.isExtend = false) :
      Inner x ⟨x.sys, x.threads.set j none, x.log⟩

/-- A step of a concurrent program whose calls satisfy `A`. -/
inductive Step (A : Cmd → Prop) : Conc α S → Conc α S → Prop
  /-- an idle thread calls a function on handles that exist and that it may borrow -/
  | call (x : Conc α S) (j : Nat) (c : Cmd) (h : x.threads[j]? = some none) (hA : A c)
      (hu : ∀ i ∈ c.uses, i < x.sys.hs.length)
      (hb : ∀ k d p, x.Runs k d p → d.Compatible c) :
      Step A x ⟨x.sys, x.threads.set j (some (c, c.prog P kec x.sys.hs)), x.log⟩
  | inner {x y : Conc α S} (h : Inner x y) : Step A x y

/-- Any number of steps. -/
inductive Steps (A : Cmd → Prop) : Conc α S → Conc α S → Prop
  | refl (x : Conc α S) : Steps A x x
  | snoc {x y z : Conc α S} (hs : Steps A x y) (h : Step P kec A y z) : Steps A x z

end Conc

/-- The start of a concurrent program with `n` threads. -/
def Kind.conc (K : Kind) (n : Nat) : Conc K.Ann K.State := ⟨K.start, List.replicate n none, []⟩

end EthTrie
