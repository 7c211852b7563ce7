import Verif.Spec.Canon
import Verif.Trie.Abs
import Verif.Trie.Plain

/-!
# Canonical tries and canonical list-keyed tries
-/

namespace EthTrie

open Spec KMap LNode Nibbles

theorem canonical_of_plain {α : Type} (t : Trie α) (h : t.plain.Canon) : t.Canonical := by
  induction t with
  | empty a => trivial
  | hash a x => trivial
  | leaf a n v => trivial
  | ext a n c ih =>
    refine ⟨fun e => h.1 ?_, ?_, ih h.2.2⟩
    · exact List.length_eq_zero_iff.1 (by rw [toList_length, e])
    · have := h.2.1
      cases c <;> simp_all [Trie.plain, Trie.BranchOrHash, isBH]
  | branch a cs v ih =>
    have ho : ∀ i, (cs i).plain ≠ .empty → (cs i).Occupied := fun i hi => by
      revert hi
      cases cs i <;> simp [Trie.plain, Trie.Occupied]
    refine ⟨fun i => ih i (h.1 i), ?_⟩
    rcases h.2 with ⟨i, j, hij, h1, h2⟩ | ⟨hv, i, h1⟩
    · exact .inl ⟨i, j, hij, ho i h1, ho j h2⟩
    · exact .inr ⟨hv, i, ho i h1⟩

theorem plain_of_canonical {α : Type} (t : Trie α) (h : t.Canonical) : t.plain.Canon := by
  induction t with
  | empty a => trivial
  | hash a x => trivial
  | leaf a n v => trivial
  | ext a n c ih =>
    refine ⟨fun e => h.1 ?_, ?_, ih h.2.2⟩
    · have := congrArg List.length e
      rwa [toList_length] at this
    · have := h.2.1
      cases c <;> simp_all [Trie.plain, Trie.BranchOrHash, isBH]
  | branch a cs v ih =>
    have ho : ∀ i, (cs i).Occupied → (cs i).plain ≠ .empty := fun i hi => by
      revert hi
      cases cs i <;> simp [Trie.plain, Trie.Occupied]
    refine ⟨fun i => ih i (h.1 i), ?_⟩
    rcases h.2 with ⟨i, j, hij, h1, h2⟩ | ⟨hv, i, h1⟩
    · exact .inl ⟨i, j, hij, ho i h1, ho j h2⟩
    · exact .inr ⟨hv, i, ho i h1⟩

theorem canonical_iff {α : Type} (t : Trie α) : t.Canonical ↔ t.plain.Canon :=
  ⟨plain_of_canonical t, canonical_of_plain t⟩

end EthTrie
