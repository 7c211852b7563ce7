import Verif.Trie.Iter
import Verif.Trie.Sim2
import Verif.Trie.Abs

/-!
# The iterator on list-keyed tries

`Iter.collect` on a represented trie yields the entries in depth-first order, the value of a branch
after its children.
-/

namespace EthTrie

open Nibbles Spec

namespace LNode

/-- Extensions have a non-empty key and lead to a branch or a hash node. -/
def ExtOK : LNode → Prop
  | .empty => True
  | .hash _ => True
  | .leaf _ _ => True
  | .ext n c => n ≠ [] ∧ c.isBH ∧ ExtOK c
  | .branch cs _ => ∀ i, ExtOK (cs i)

/-- The entries with keys prefixed by `p`, in the order of the iterator. -/
def items : LNode → Key → List (Key × ValOrHash)
  | .empty, _ => []
  | .hash h, p => [(p, .hash h)]
  | .branch cs v, p =>
    ((List.finRange 16).map fun i => items (cs i) (p ++ [i])).flatten ++
      (if v = [] then [] else [(p, .val v)])
  | .ext n c, p => items c (p ++ n)
  | .leaf n v, p => [(p ++ n, .val v)]

/-- Is there a branch at the end of the leading extensions? -/
def endsInBranch : LNode → Bool
  | .branch _ _ => true
  | .ext _ c => endsInBranch c
  | _ => false

theorem Canon.extOK : ∀ {l : LNode}, l.Canon → l.ExtOK := by
  intro l
  induction l with
  | empty => intro _; trivial
  | hash h => intro _; trivial
  | leaf n v => intro _; trivial
  | ext n c ih => intro h; exact ⟨h.1, h.2.1, ih h.2.2⟩
  | branch cs v ih => intro h i; exact ih i (h.1 i)

end LNode

/-- Items with list keys as the code returns them. -/
def packItems (xs : List (Key × ValOrHash)) : List Item := xs.map fun x => (ofList x.1, x.2)

section
variable {kec : Bytes → H256} {α S : Type} [K : TrieKind α S] [L : KindLaws kec α S] {P : Profile}

/-- What remains to be done after one step of the loop. -/
def iterCont (P : Profile) {α : Type} : R (Option Item × Iter α) → R (List Item)
  | .error e => .error e
  | .ok (none, it) => it.collect P
  | .ok (some x, it) => match it.collect P with
    | .error e => .error e
    | .ok xs => .ok (x :: xs)

theorem collect_unfold (it : Iter α) : it.collect P = match it.next P with
    | .error e => .error e
    | .ok (none, _) => .ok []
    | .ok (some x, it') => match it'.collect P with
      | .error e => .error e
      | .ok xs => .ok (x :: xs) := by
  conv => lhs; rw [Iter.collect]
  split <;> rename_i h <;> simp only [h]
  rfl

theorem next_cons (k : Nibbles) (e : IterEntry α) (s : List (IterEntry α)) :
    (⟨k, e :: s⟩ : Iter α).next P = match (⟨k, s⟩ : Iter α).stepEntry P e with
      | .error err => .error err
      | .ok (some x, it') => .ok (some x, it')
      | .ok (none, it') => Iter.next P it' := by
  conv => lhs; rw [Iter.next]
  split
  · rename_i h; simp at h
  · rename_i e' s' h
    simp only [List.cons.injEq] at h
    obtain ⟨h1, h2⟩ := h
    subst h1 h2
    split <;> rename_i h <;> simp only at h <;> simp only [h]

theorem collect_nil (k : Nibbles) : (⟨k, []⟩ : Iter α).collect P = .ok [] := by
  have hn : (⟨k, []⟩ : Iter α).next P = .ok (none, ⟨k, []⟩) := by rw [Iter.next]
  rw [collect_unfold, hn]

theorem collect_cons (k : Nibbles) (e : IterEntry α) (s : List (IterEntry α)) :
    (⟨k, e :: s⟩ : Iter α).collect P = iterCont P ((⟨k, s⟩ : Iter α).stepEntry P e) := by
  rw [collect_unfold, next_cons]
  cases (⟨k, s⟩ : Iter α).stepEntry P e with
  | error err => rfl
  | ok r =>
    obtain ⟨o, it'⟩ := r
    cases o with
    | some x => rfl
    | none => simp only [iterCont]; rw [← collect_unfold]

theorem packItems_append (a b : List (Key × ValOrHash)) :
    packItems (a ++ b) = packItems a ++ packItems b := by simp [packItems]

theorem finRange_drop (j : Fin 16) :
    (List.finRange 16).drop j.val = j :: (List.finRange 16).drop (j.val + 1) := by
  rw [List.drop_eq_getElem_cons (by simp)]
  simp

/-- The key register of the iterator after a node at `p` has been processed. -/
def keyAfter (l : LNode) (p k : Key) : Key := if l.endsInBranch then p.dropLast else k

theorem notHash_eq {w : L.W} {t : Trie α} {l : LNode} (h : RepN kec w t l) :
    notHash t = match l with | .hash _ => false | _ => true := by
  cases h <;> rfl

theorem truncate_one {p : Key} (hp : p.length ≤ 64) :
    (if !(ofList p).isEmpty then (ofList p).truncateBack P 1 else Pure.pure (ofList p)) =
      (.ok (ofList p.dropLast) : R Nibbles) := by
  cases p with
  | nil => rfl
  | cons d p =>
    simp only [isEmpty_ofList, List.isEmpty_cons, Bool.not_false, if_true]
    rw [truncateBack_ok P (by omega) (by omega), List.dropLast_eq_take]

theorem iterCont_some (x : Item) (it : Iter α) :
    iterCont P (.ok (some x, it)) = (it.collect P).map (x :: ·) := by
  simp only [iterCont]
  cases it.collect P <;> rfl

theorem map_nil_append (r : R (List Item)) : r.map (([] : List Item) ++ ·) = r := by cases r <;> rfl

theorem map_append_append (r : R (List Item)) (xs ys : List Item) :
    (r.map (ys ++ ·)).map (xs ++ ·) = r.map ((xs ++ ys) ++ ·) := by cases r <;> simp [Except.map]

open Classical in
theorem advance_spec {w : L.W} : ∀ (l : LNode) (t : Trie α) (p k : Key) (s : List (IterEntry α))
    (r : R (List Item)), RepN kec w t l → l.ExtOK → p.length ≤ 64 →
    (⟨ofList (keyAfter l p k), s⟩ : Iter α).collect P = r →
    iterCont P (Iter.advance P t (ofList p) ⟨ofList k, s⟩) =
      if l.Bound (64 - p.length) then r.map (packItems (l.items p) ++ ·) else .error .assertFailed := by
  intro l
  induction l with
  | empty =>
    intro t p k s r ht _ _ hr
    cases ht
    rw [if_pos (show LNode.Bound .empty _ from trivial)]
    simp only [keyAfter, LNode.endsInBranch, Bool.false_eq_true, if_false] at hr
    simp only [Iter.advance, R_pure, iterCont, LNode.items, packItems, List.map_nil, map_nil_append, hr]
  | hash h =>
    intro t p k s r ht _ _ hr
    cases ht
    rw [if_pos (show LNode.Bound (.hash h) _ from trivial)]
    simp only [keyAfter, LNode.endsInBranch, Bool.false_eq_true, if_false] at hr
    simp only [Iter.advance, R_pure, iterCont_some, hr, LNode.items, packItems, List.map_cons, List.map_nil]
    rfl
  | leaf n v =>
    intro t p k s r ht _ hp hr
    cases ht with
    | leaf a _ _ hn =>
    simp only [keyAfter, LNode.endsInBranch, Bool.false_eq_true, if_false] at hr
    simp only [Iter.advance]
    by_cases hb : n.length ≤ 64 - p.length
    · rw [mergeNibbles_ok P (by omega), if_pos (show LNode.Bound (.leaf n v) _ from hb)]
      simp only [R_bind_ok, R_pure, iterCont_some, hr, LNode.items, packItems, List.map_cons, List.map_nil]
      rfl
    · rw [mergeNibbles_err (by omega) hn (by omega), if_neg (show ¬ LNode.Bound (.leaf n v) _ from hb)]
      rfl
  | ext n c ih =>
    intro t p k s r ht he hp hr
    obtain ⟨hn, hbh, he⟩ := he
    cases ht with
    | ext a _ tc _ hk h ho =>
    simp only [Iter.advance]
    by_cases hb1 : n.length ≤ 64 - p.length
    swap
    · rw [mergeNibbles_err (by omega) hk (by omega),
        if_neg (show ¬ LNode.Bound (.ext n c) _ from fun h => hb1 h.1)]
      rfl
    have hb2 : LNode.Bound (.ext n c) (64 - p.length) ↔ c.Bound (64 - (p ++ n).length) := by
      rw [List.length_append, ← Nat.sub_sub]
      exact ⟨fun h => h.2, fun h => ⟨hb1, h⟩⟩
    simp only [hb2]
    rw [mergeNibbles_ok P (by omega)]
    simp only [R_bind_ok, notHash_eq h]
    cases c with
    | empty => exact hbh.elim
    | leaf => exact hbh.elim
    | ext => exact hbh.elim
    | hash hh =>
      exact ih tc (p ++ n) k s r h he (by simp; omega) hr
    | branch cs v =>
      refine ih tc (p ++ n) k _ r h he (by simp; omega) ?_
      rw [collect_cons]
      simp only [keyAfter, LNode.endsInBranch, if_true, Iter.stepEntry] at hr ⊢
      rw [ofList_count, truncateBack_ok P (by simp; omega) (by simp; omega)]
      simp only [R_bind_ok, R_pure, iterCont]
      rw [← hr]
      congr 3
      simp only [List.dropLast_eq_take, List.length_append, List.length_take, List.take_take]
      rw [show min (min (p.length + n.length - 1) (p.length + n.length) - n.length)
        (p.length + n.length - 1) = p.length - 1 by omega]
      rw [List.take_append_of_le_length (by omega)]
  | branch cs v ih =>
    intro t p k s r ht he hp hr
    cases ht with
    | branch a tcs _ _ h ho =>
    simp only [Iter.advance, pushNibbleBack_eq_mergeNibble]
    by_cases hb1 : 1 ≤ 64 - p.length
    swap
    · rw [mergeNibble_err (.inl (by rw [ofList_count]; omega)),
        if_neg (show ¬ LNode.Bound (.branch cs v) _ from fun h => hb1 h.1)]
      rfl
    have hb2 : ∀ i : Fin 16, (64 - (p ++ [i]).length) = 64 - p.length - 1 := by
      intro i
      rw [List.length_append, ← Nat.sub_sub]; rfl
    simp only [keyAfter, LNode.endsInBranch, if_true] at hr
    have hka : ∀ i : Fin 16, keyAfter (cs i) (p ++ [i]) p = p := by
      intro i; simp [keyAfter]
    -- the loop over the children, from the last one
    have loop : ∀ m : Nat, m ≤ 15 →
        (⟨ofList p, .branch tcs v (16 - m) :: s⟩ : Iter α).collect P =
          if (∀ i ∈ (List.finRange 16).drop (16 - m), (cs i).Bound (64 - p.length - 1)) then r.map (packItems
          ((((List.finRange 16).drop (16 - m)).map fun i => (cs i).items (p ++ [i])).flatten ++
            (if v = [] then [] else [(p, .val v)])) ++ ·) else .error .assertFailed := by
      intro m
      induction m with
      | zero =>
        intro _
        rw [collect_cons]
        simp only [Iter.stepEntry]
        rw [if_neg (by decide), if_pos (by decide), truncate_one hp]
        simp only [R_bind_ok, R_pure]
        have : (List.finRange 16).drop (16 - 0) = [] := by decide
        rw [this, if_pos (by simp)]
        cases v with
        | nil =>
          simp only [List.isEmpty_nil, iterCont, hr, List.map_nil, List.flatten_nil, if_true, packItems,
            List.append_nil, map_nil_append]
        | cons b v =>
          simp only [List.isEmpty_cons, iterCont_some, hr]
          rfl
      | succ m ihm =>
        intro hm
        rw [collect_cons]
        simp only [Iter.stepEntry]
        rw [if_pos (show 1 ≤ 16 - (m + 1) ∧ 16 - (m + 1) ≤ 15 from ⟨by omega, by omega⟩),
          show idx16 (16 - (m + 1)) = _ from idx16_val ⟨16 - (m + 1), by omega⟩, R_bind_ok,
          mergeNibble_ok P (by omega) (by omega), R_bind_ok]
        have e : 16 - (m + 1) + 1 = 16 - m := by omega
        have hd : (16 - (m + 1)) < 16 := by omega
        have := ih ⟨16 - (m + 1), hd⟩ (tcs ⟨16 - (m + 1), hd⟩) (p ++ [⟨16 - (m + 1), hd⟩]) p
          (.branch tcs v (16 - (m + 1) + 1) :: s) _ (h _) (he _) (by simp; omega)
          (by rw [hka, e, ihm (by omega)])
        rw [this, hb2]
        have hdrop := finRange_drop ⟨16 - (m + 1), hd⟩
        simp only [e] at hdrop
        rw [hdrop]
        simp only [List.forall_mem_cons]
        by_cases h1 : (cs ⟨16 - (m + 1), hd⟩).Bound (64 - p.length - 1)
        · rw [if_pos h1]
          by_cases h2 : ∀ i ∈ (List.finRange 16).drop (16 - m), (cs i).Bound (64 - p.length - 1)
          · rw [if_pos h2, if_pos (And.intro h1 h2), map_append_append]
            simp [packItems]
          · rw [if_neg h2, if_neg fun h => h2 h.2]; rfl
        · rw [if_neg h1, if_neg fun h => h1 h.1]
    rw [mergeNibble_ok P (by omega) (by omega), R_bind_ok]
    have := ih 0 (tcs 0) (p ++ [0]) p (.branch tcs v 1 :: s) _ (h _) (he _) (by simp; omega)
      ((congrArg (fun q => (⟨ofList q, .branch tcs v 1 :: s⟩ : Iter α).collect P) (hka 0)).trans
        (loop 15 (by omega)))
    refine this.trans ?_
    have hdrop := finRange_drop 0
    simp only [Fin.val_zero, List.drop_zero] at hdrop
    have hall : LNode.Bound (.branch cs v) (64 - p.length) ↔ (cs 0).Bound (64 - p.length - 1) ∧
        ∀ i ∈ (List.finRange 16).drop (16 - 15), (cs i).Bound (64 - p.length - 1) := by
      rw [← List.forall_mem_cons (p := fun i => (cs i).Bound (64 - p.length - 1)), ← hdrop]
      exact ⟨fun h i _ => h.2 i, fun h => ⟨hb1, fun i => h i (List.mem_finRange i)⟩⟩
    rw [hb2]
    simp only [hall]
    by_cases h1 : (cs 0).Bound (64 - p.length - 1)
    · rw [if_pos h1]
      by_cases h2 : ∀ i ∈ (List.finRange 16).drop (16 - 15), (cs i).Bound (64 - p.length - 1)
      · rw [if_pos h2, if_pos (And.intro h1 h2), map_append_append]
        conv => rhs; rw [LNode.items, hdrop]
        simp [packItems]
      · rw [if_neg h2, if_neg fun h => h2 h.2]
        rfl
    · rw [if_neg h1, if_neg fun h => h1 h.1]

open Classical in
/-- The entries in the order of the iterator; it panics if a path has more than 64 nibbles. -/
noncomputable def LNode.itemsA (l : LNode) : R (List (Key × ValOrHash)) :=
  if l.Bound 64 then .ok (l.items []) else .error .assertFailed

theorem LNode.itemsA_eq {l : LNode} (h : l.Bound 64) : l.itemsA = .ok (l.items []) := if_pos h

/-- The iterator yields exactly the entries, in order, or panics. -/
theorem items_exact {w : L.W} {l : LNode} {t : Trie α} (ht : RepN kec w t l) (he : l.ExtOK) :
    t.items P = l.itemsA.map packItems := by
  unfold Trie.items Trie.iter
  rw [collect_cons]
  have := advance_spec (P := P) l t [] [] [] (.ok []) ht he (by simp) (collect_nil _)
  simp only [Iter.stepEntry, default_eq]
  rw [this]
  unfold LNode.itemsA
  simp only [List.length_nil, Nat.sub_zero]
  by_cases hb : l.Bound 64
  · rw [if_pos hb, if_pos hb]
    simp [Except.map]
  · rw [if_neg hb, if_neg hb]
    rfl

/-- The iterator yields exactly the entries, in order. -/
theorem items_eq {w : L.W} {l : LNode} {t : Trie α} (ht : RepN kec w t l) (he : l.ExtOK)
    (hb : l.Bound 64) : t.items P = .ok (packItems (l.items [])) := by
  rw [items_exact ht he, LNode.itemsA_eq hb]
  rfl

end
end EthTrie
