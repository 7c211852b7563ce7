import Verif.Trie.Abs
import Verif.Trie.Iter

/-!
# Hash nodes are opaque
-/

namespace EthTrie
namespace LNode

open KMap

variable {h : H256}

theorem insert_hash (v : ValOrHash) : ∀ (l : LNode) (q r : Key), absL l q = some (.hash h) →
    l.insert (q ++ r) v = .error .hashInsert := by
  intro l
  induction l with
  | empty => intro q r e; simp at e
  | hash x => intro q r e; rfl
  | branch cs w ih =>
    intro q r e
    cases q with
    | nil =>
      simp only [absL_branch_nil] at e
      split at e <;> cases e
    | cons d q =>
      rw [absL_branch_cons] at e
      simp only [List.cons_append, insert]
      rw [ih d q r e]; rfl
  | ext n c ih =>
    intro q r e
    obtain ⟨s, rfl, _⟩ := absL_ext_some (q := q) (by rw [e]; simp)
    rw [absL_ext_append] at e
    simp only [insert, List.append_assoc, List.prefix_append, true_or, if_true, List.drop_left]
    rw [ih s r e]; rfl
  | leaf n w =>
    intro q r e
    rw [absL_leaf] at e
    split at e <;> cases e

theorem deleteRec_hash : ∀ (l : LNode) (q r : Key), absL l q = some (.hash h) →
    l.deleteRec (q ++ r) = .error .hashDelete := by
  intro l
  induction l with
  | empty => intro q r e; simp at e
  | hash x => intro q r e; rfl
  | branch cs w ih =>
    intro q r e
    cases q with
    | nil =>
      simp only [absL_branch_nil] at e
      split at e <;> cases e
    | cons d q =>
      rw [absL_branch_cons] at e
      simp only [List.cons_append, deleteRec]
      rw [ih d q r e]; rfl
  | ext n c ih =>
    intro q r e
    obtain ⟨s, rfl, _⟩ := absL_ext_some (q := q) (by rw [e]; simp)
    rw [absL_ext_append] at e
    simp only [deleteRec, List.append_assoc, List.prefix_append, true_or, if_true, List.drop_left]
    rw [ih s r e]; rfl
  | leaf n w =>
    intro q r e
    rw [absL_leaf] at e
    split at e <;> cases e

theorem delete_hash {l : LNode} {q r : Key} (e : absL l q = some (.hash h)) :
    l.delete (q ++ r) = .error .hashDelete := by
  unfold delete
  rw [deleteRec_hash l q r e]; rfl

theorem deleteRecA_hash : ∀ (l : LNode) (q r : Key), absL l q = some (.hash h) →
    l.deleteRecA (q ++ r) = .error .hashDelete := by
  intro l
  induction l with
  | empty => intro q r e; simp at e
  | hash x => intro q r e; rfl
  | branch cs w ih =>
    intro q r e
    cases q with
    | nil =>
      simp only [absL_branch_nil] at e
      split at e <;> cases e
    | cons d q =>
      rw [absL_branch_cons] at e
      simp only [List.cons_append, deleteRecA]
      rw [ih d q r e]; rfl
  | ext n c ih =>
    intro q r e
    obtain ⟨s, rfl, _⟩ := absL_ext_some (q := q) (by rw [e]; simp)
    rw [absL_ext_append] at e
    simp only [deleteRecA, List.append_assoc, List.prefix_append, true_or, if_true, List.drop_left]
    rw [ih s r e]; rfl
  | leaf n w =>
    intro q r e
    rw [absL_leaf] at e
    split at e <;> cases e

theorem deleteA_hash {l : LNode} {q r : Key} (e : absL l q = some (.hash h)) :
    l.deleteA (q ++ r) = .error .hashDelete := by
  unfold deleteA
  rw [deleteRecA_hash l q r e]; rfl

theorem get_hash (P : Profile) : ∀ (l : LNode) (q r : Key), absL l q = some (.hash h) →
    l.get P (q ++ r) = .ok none := by
  intro l
  induction l with
  | empty => intro q r e; simp at e
  | hash x => intro q r e; rfl
  | branch cs w ih =>
    intro q r e
    cases q with
    | nil =>
      simp only [absL_branch_nil] at e
      split at e <;> cases e
    | cons d q =>
      rw [absL_branch_cons] at e
      simp only [List.cons_append, LNode.get]
      rw [ih d q r e]
  | ext n c ih =>
    intro q r e
    obtain ⟨s, rfl, _⟩ := absL_ext_some (q := q) (by rw [e]; simp)
    rw [absL_ext_append] at e
    simp [LNode.get, ih s r e]
  | leaf n w =>
    intro q r e
    rw [absL_leaf] at e
    split at e <;> cases e

theorem insert_onto : ∀ (l : LNode) (k r : Key), absL l (k ++ r) ≠ none →
    ∃ e, l.insert k (.hash h) = .error e := by
  intro l
  induction l with
  | empty => intro k r e; simp at e
  | hash x => intro k r e; exact ⟨_, rfl⟩
  | branch cs w ih =>
    intro k r e
    cases k with
    | nil => exact ⟨_, rfl⟩
    | cons d k =>
      rw [List.cons_append, absL_branch_cons] at e
      obtain ⟨x, hx⟩ := ih d k r e
      exact ⟨x, by simp only [insert, hx]; rfl⟩
  | ext n c ih =>
    intro k r e
    obtain ⟨s, hs, e'⟩ := absL_ext_some e
    have hpre : n <+: k ∨ k <+: n :=
      List.prefix_or_prefix_of_prefix (hs ▸ List.prefix_append n s) (List.prefix_append k r)
    have : ∃ r', absL c (k.drop n.length ++ r') ≠ none := by
      rcases hpre with ⟨k', rfl⟩ | ⟨n', rfl⟩
      · rw [List.drop_left]
        rw [List.append_assoc] at hs
        exact ⟨r, by rw [List.append_cancel_left hs]; exact e'⟩
      · rw [List.drop_eq_nil_of_le (by simp)]
        exact ⟨s, e'⟩
    obtain ⟨r', hr'⟩ := this
    obtain ⟨x, hx⟩ := ih _ r' hr'
    exact ⟨x, by simp only [insert, if_pos hpre, hx]; rfl⟩
  | leaf n w =>
    intro k r e
    have : n = k ++ r := by
      rw [absL_leaf] at e
      by_contra h'
      rw [if_neg (Ne.symm h')] at e
      exact e rfl
    subst this
    by_cases hr : r = []
    · subst hr
      exact ⟨.hashOnExisting, by simp [insert]⟩
    · refine ⟨.expectFailed, ?_⟩
      obtain ⟨d, r, rfl⟩ := List.exists_cons_of_ne_nil hr
      obtain ⟨p, n', k', h1, h2, hp, hd⟩ := cpl_split (k ++ d :: r) k
      have hk' : k' = [] ∧ p = k := by
        cases k' with
        | nil => exact ⟨rfl, by simpa using h2.symm⟩
        | cons y ys =>
          exfalso
          cases n' with
          | nil =>
            have := congrArg List.length h1
            have := congrArg List.length h2
            simp at *
            omega
          | cons x xs =>
            rw [h2, List.append_assoc] at h1
            have := List.append_cancel_left h1
            simp at this
            exact hd x xs y ys rfl rfl this.1.symm
      obtain ⟨rfl, rfl⟩ := hk'
      simp only [insert, hp, List.drop_left, List.take_left]
      simp
end LNode
end EthTrie
