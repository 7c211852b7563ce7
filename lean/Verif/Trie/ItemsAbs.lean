import Verif.Spec.Order
import Verif.Trie.YP
import Verif.Trie.IterSim

/-!
# The entries that are iterated over are the contents, in order
-/

namespace EthTrie
namespace LNode

open Spec

theorem mem_items {v : ValOrHash} : ∀ (l : LNode) (p k : Key),
    (k, v) ∈ l.items p ↔ ∃ q, k = p ++ q ∧ absL l q = some v := by
  intro l
  induction l with
  | empty => simp [items]
  | hash h =>
    intro p k
    simp only [items, List.mem_singleton, Prod.mk.injEq, absL_hash]
    constructor
    · rintro ⟨rfl, rfl⟩; exact ⟨[], by simp⟩
    · rintro ⟨q, rfl, hq⟩
      split at hq
      · rename_i h0; subst h0; cases hq; simp
      · simp at hq
  | leaf n w =>
    intro p k
    simp only [items, List.mem_singleton, Prod.mk.injEq, absL_leaf]
    constructor
    · rintro ⟨rfl, rfl⟩; exact ⟨n, by simp⟩
    · rintro ⟨q, rfl, hq⟩
      split at hq
      · rename_i h0; subst h0; cases hq; simp
      · simp at hq
  | ext n c ih =>
    intro p k
    simp only [items, ih]
    constructor
    · rintro ⟨q, rfl, hq⟩; exact ⟨n ++ q, by simp, by simpa using hq⟩
    · rintro ⟨q, rfl, hq⟩
      obtain ⟨r, rfl, _⟩ := absL_ext_some (n := n) (c := c) (q := q) (by simp [hq])
      exact ⟨r, by simp, by simpa using hq⟩
  | branch cs w ih =>
    intro p k
    simp only [items, List.mem_append, List.mem_flatten, List.mem_map, List.mem_finRange, true_and]
    constructor
    · rintro (⟨_, ⟨i, rfl⟩, h⟩ | h)
      · obtain ⟨q, rfl, hq⟩ := (ih i _ _).1 h
        exact ⟨i :: q, by simp, hq⟩
      · split at h
        · simp at h
        · rename_i hw
          simp only [List.mem_singleton, Prod.mk.injEq] at h
          exact ⟨[], by simp [h.1], by simp [hw, h.2]⟩
    · rintro ⟨q, rfl, hq⟩
      cases q with
      | nil =>
        right
        simp only [absL_branch_nil] at hq
        split at hq
        · simp at hq
        · rename_i hw; cases hq; simp [hw]
      | cons d q =>
        left
        exact ⟨_, ⟨d, rfl⟩, (ih d _ _).2 ⟨q, by simp, hq⟩⟩

theorem items_ordered : ∀ (l : LNode) (p : Key), Ordered (l.items p) := by
  intro l
  induction l with
  | empty => intro p; simp [items, Ordered]
  | hash h => intro p; simp [items, Ordered]
  | leaf n w => intro p; simp [items, Ordered]
  | ext n c ih => intro p; simpa [items] using ih _
  | branch cs w ih =>
    intro p
    unfold Ordered
    simp only [items]
    rw [List.pairwise_append]
    refine ⟨?_, by split <;> simp, ?_⟩
    · rw [List.pairwise_flatten]
      constructor
      · simp only [List.mem_map, List.mem_finRange, true_and, forall_exists_index,
          forall_apply_eq_imp_iff]
        exact fun i => ih i _
      · rw [List.pairwise_map]
        refine (List.pairwise_lt_finRange 16).imp ?_
        rintro i j hij ⟨a, v⟩ ha ⟨b, w⟩ hb
        obtain ⟨q, rfl, _⟩ := (mem_items _ _ _).1 ha
        obtain ⟨r, rfl, _⟩ := (mem_items _ _ _).1 hb
        simp only [List.append_assoc, Before.append_iff]
        exact .inl hij
    · rintro ⟨a, v⟩ ha ⟨b, x⟩ hb
      simp only [List.mem_flatten, List.mem_map, List.mem_finRange, true_and] at ha
      obtain ⟨_, ⟨i, rfl⟩, h⟩ := ha
      obtain ⟨q, rfl, _⟩ := (mem_items _ _ _).1 h
      split at hb
      · simp at hb
      · simp only [List.mem_singleton, Prod.mk.injEq] at hb
        rw [hb.1, List.append_assoc]
        have := (Before.append_iff p ([i] ++ q) []).2 (by simp [Before])
        simpa using this

theorem items_lists (l : LNode) : Lists (l.items []) (absL l) :=
  ⟨(items_ordered l []).nodup, fun k v => by simp [mem_items]⟩

end LNode
end EthTrie
