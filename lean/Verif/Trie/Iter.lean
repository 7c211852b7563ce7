import Verif.Trie.Model
import Verif.Nibbles.Lemmas

/-!
# Model of the trie iterator (`src/trie_ops.rs:139-261, 347-360`)

`trie_items` wraps a clone of the root node in a new wrapper; the cache cell allocated there is never
used and is not modelled.
-/

namespace EthTrie

open Nibbles

/-- `enum IterStackEntry` and `struct BranchStackEntry` (`src/trie_ops.rs:140-152`). -/
inductive IterEntry (α : Type) where
  | root (t : Trie α)
  | ext (numNibbles : Nat)
  | branch (children : Fin 16 → Trie α) (value : Bytes) (currNib : Nibble)

/-- `struct PartialTrieIter` (`src/trie_ops.rs:154-158`); the head of the list is the top of the
stack. -/
structure Iter (α : Type) where
  key : Nibbles
  stack : List (IterEntry α)

/-- Items yielded by the iterator (`src/trie_ops.rs:200`). -/
abbrev Item := Nibbles × ValOrHash

/-- `TrieNodeType::from(child) != TrieNodeType::Hash` (`src/trie_ops.rs:182`) -/
def notHash {α : Type} : Trie α → Bool
  | .hash _ _ => false
  | _ => true

section
variable {α : Type} (P : Profile)

/-- `advance_iter_to_next_empty_leaf_or_hash_node` (`src/trie_ops.rs:161-196`). -/
def Iter.advance : Trie α → Nibbles → Iter α → R (Option Item × Iter α)
  | .empty _, _, it => return (none, it)
  | .hash _ h, k, it => return (some (k, .hash h), it)
  | .branch _ cs v, k, it => do
    let k' ← k.pushNibbleBack P 0
    Iter.advance (cs 0) k' ⟨k, .branch cs v 1 :: it.stack⟩
  | .ext _ n c, k, it => do
    let it' := if notHash c then ⟨it.key, .ext n.count :: it.stack⟩ else it
    let k' ← k.mergeNibbles P n
    Iter.advance c k' it'
  | .leaf _ n v, k, it => do
    let k' ← k.mergeNibbles P n
    return (some (k', .val v), it)

/-- The body of the `while` loop of `next` (`src/trie_ops.rs:205-257`) for a popped entry. -/
def Iter.stepEntry (it : Iter α) : IterEntry α → R (Option Item × Iter α)
  | .root t => Iter.advance P t Nibbles.default it
  | .ext n => do
    let k ← it.key.truncateBack P n
    return (none, ⟨k, it.stack⟩)
  | .branch cs v nib => do
    if 1 ≤ nib ∧ nib ≤ 15 then
      let i ← idx16 nib
      let k ← it.key.mergeNibble P nib
      Iter.advance P (cs i) k ⟨it.key, .branch cs v (nib + 1) :: it.stack⟩
    else if nib = 16 then
      let res : Option Item := match v.isEmpty with
        | false => some (it.key, .val v)
        | true => none
      let k ← (if !it.key.isEmpty then it.key.truncateBack P 1 else pure it.key)
      return (res, ⟨k, it.stack⟩)
    else .error .unreachableCode

/-! ### Termination measure of the loop -/

/-- Size of a trie, bounding the work of the iterator. -/
def Trie.isize : Trie α → Nat
  | .empty _ => 1
  | .hash _ _ => 1
  | .branch _ cs _ => 2 + ((List.finRange 16).map fun i => 1 + (cs i).isize).sum
  | .ext _ _ c => 2 + c.isize
  | .leaf _ _ _ => 1

/-- Weight of a stack entry. -/
def IterEntry.weight : IterEntry α → Nat
  | .root t => 1 + t.isize
  | .ext _ => 1
  | .branch cs _ j =>
    1 + (((List.finRange 16).drop j).map fun i => 1 + (cs i).isize).sum

/-- Weight of the stack. -/
def Iter.weight (it : Iter α) : Nat := (it.stack.map IterEntry.weight).sum

theorem R_bind_eq_ok {α β : Type} {x : R α} {f : α → R β} {b : β} :
    (x >>= f) = .ok b ↔ ∃ a, x = .ok a ∧ f a = .ok b := by
  cases x with
  | error e => simp
  | ok a => simp

theorem advance_weight (t : Trie α) : ∀ (k : Nibbles) (it it' : Iter α) (o : Option Item),
    Iter.advance P t k it = .ok (o, it') → it'.weight ≤ it.weight + t.isize := by
  induction t with
  | empty a =>
    intro k it it' o h
    simp [Iter.advance] at h
    rw [h.2]; omega
  | hash a hh =>
    intro k it it' o h
    simp [Iter.advance] at h
    rw [h.2]; omega
  | leaf a n v =>
    intro k it it' o h
    simp only [Iter.advance, R_bind_eq_ok] at h
    obtain ⟨k', -, h⟩ := h
    simp at h
    rw [h.2]; omega
  | ext a n c ih =>
    intro k it it' o h
    simp only [Iter.advance, R_bind_eq_ok] at h
    obtain ⟨k', -, h⟩ := h
    have := ih _ _ _ _ h
    refine Nat.le_trans this ?_
    by_cases hc : notHash c = true
    · simp [hc, Iter.weight, IterEntry.weight, Trie.isize]; omega
    · simp [hc, Iter.weight, Trie.isize]
  | branch a cs v ih =>
    intro k it it' o h
    simp only [Iter.advance, R_bind_eq_ok] at h
    obtain ⟨k', -, h⟩ := h
    have := ih 0 _ _ _ _ h
    refine Nat.le_trans this ?_
    have e : List.finRange 16 = 0 :: (List.finRange 16).drop 1 := by decide
    simp only [Iter.weight, List.map_cons, List.sum_cons, IterEntry.weight, Trie.isize]
    conv => rhs; rw [e]
    simp only [List.map_cons, List.sum_cons]
    omega

theorem stepEntry_weight (it it' : Iter α) (e : IterEntry α) (o : Option Item)
    (h : it.stepEntry P e = .ok (o, it')) : it'.weight < it.weight + e.weight := by
  cases e with
  | root t =>
    have := advance_weight P t _ _ _ _ h
    simp only [IterEntry.weight]; omega
  | ext n =>
    simp only [Iter.stepEntry, R_bind_eq_ok] at h
    obtain ⟨k', -, h⟩ := h
    simp at h
    rw [← h.2]; simp [Iter.weight, IterEntry.weight]
  | branch cs v nib =>
    simp only [Iter.stepEntry] at h
    split at h
    · rename_i hn
      simp only [R_bind_eq_ok] at h
      obtain ⟨i, hi, k, -, h⟩ := h
      have := advance_weight P _ _ _ _ _ h
      have hi' : i.val = nib := by
        unfold idx16 at hi
        split at hi <;> simp at hi
        rw [← hi]
      subst hi'
      have e : (List.finRange 16).drop i.val = i :: (List.finRange 16).drop (i.val + 1) := by
        rw [List.drop_eq_getElem_cons (by simp)]
        simp
      simp only [Iter.weight, List.map_cons, List.sum_cons, IterEntry.weight] at this ⊢
      conv => rhs; rw [e]
      simp only [List.map_cons, List.sum_cons]
      omega
    · split at h
      · simp only [R_bind_eq_ok] at h
        obtain ⟨k, -, h⟩ := h
        simp at h
        rw [← h.2]; simp only [Iter.weight, IterEntry.weight]; omega
      · simp at h

/-! ### The loop -/

/-- `Iterator::next` (`src/trie_ops.rs:202-260`): `None` when the stack is exhausted. -/
def Iter.next (it : Iter α) : R (Option Item × Iter α) :=
  match hs : it.stack with
  | [] => .ok (none, it)
  | e :: rest =>
    match hst : (⟨it.key, rest⟩ : Iter α).stepEntry P e with
    | .error err => .error err
    | .ok (some x, it') => .ok (some x, it')
    | .ok (none, it') => Iter.next it'
  termination_by it.weight
  decreasing_by
    have := stepEntry_weight P _ _ _ _ hst
    simp only [Iter.weight, hs, List.map_cons, List.sum_cons] at this ⊢
    omega

theorem next_weight (it : Iter α) : ∀ (it' : Iter α) (x : Item),
    it.next P = .ok (some x, it') → it'.weight < it.weight := by
  induction hw : it.weight using Nat.strong_induction_on generalizing it with
  | _ w ih =>
    intro it' x h
    unfold Iter.next at h
    split at h
    · simp at h
    · rename_i e rest hs
      split at h
      · simp at h
      · rename_i y it2 hst
        have := stepEntry_weight P _ _ _ _ hst
        simp only [Except.ok.injEq, Prod.mk.injEq] at h
        rw [← h.2, ← hw]
        simp only [Iter.weight, hs, List.map_cons, List.sum_cons] at this ⊢
        omega
      · rename_i it2 hst
        have := stepEntry_weight P _ _ _ _ hst
        have h2 : it2.weight < w := by
          rw [← hw]
          simp only [Iter.weight, hs, List.map_cons, List.sum_cons] at this ⊢
          omega
        exact Nat.lt_trans (ih _ h2 it2 rfl _ _ h) h2

/-- Calling `next` until it returns `None` (e.g. `collect()`) (of `src/trie_ops.rs:199-202`). -/
def Iter.collect (it : Iter α) : R (List Item) :=
  match hn : it.next P with
  | .error e => .error e
  | .ok (none, _) => .ok []
  | .ok (some x, it') =>
    match Iter.collect it' with
    | .error e => .error e
    | .ok xs => .ok (x :: xs)
  termination_by it.weight
  decreasing_by exact next_weight P _ _ _ hn

/-- `trie_items` (`src/trie_ops.rs:347-352`), as a fresh iterator. -/
def Trie.iter (t : Trie α) : Iter α := ⟨Nibbles.default, [.root t]⟩

/-- `items().collect()` (`src/trie_ops.rs:347-352`, `src/partial_trie.rs:241-243, 359-361`). -/
def Trie.items (t : Trie α) : R (List Item) := t.iter.collect P

/-- `keys().collect()` (`src/trie_ops.rs:354-356`). -/
def Trie.keys (t : Trie α) : R (List Nibbles) := do return (← t.items P).map Prod.fst

/-- `values().collect()` (`src/trie_ops.rs:358-360`). -/
def Trie.values (t : Trie α) : R (List ValOrHash) := do return (← t.items P).map Prod.snd

end

end EthTrie
