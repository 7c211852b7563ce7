import Verif.Trie.IterSim

/-!
# The iterator, one call of `next` at a time
-/

namespace EthTrie

open Nibbles Spec

/-- The result of the call number `n` (from 0) of `next` (`src/trie_ops.rs:202-260`). -/
def Iter.nth (P : Profile) {α : Type} (it : Iter α) : Nat → R (Option Item)
  | 0 => (it.next P).map (·.1)
  | n + 1 =>
    match it.next P with
    | .error e => .error e
    | .ok (_, it') => it'.nth P n

/-- Some items, and whether a panic follows. -/
abbrev Outs (β : Type) := List β × Option Panic

/-- One after the other. -/
def Outs.seq {β : Type} (a b : Outs β) : Outs β :=
  match a.2 with
  | some e => (a.1, some e)
  | none => (a.1 ++ b.1, b.2)

/-- The item number `n`. -/
def Outs.nth {β : Type} (a : Outs β) (n : Nat) : R (Option β) :=
  match a.1[n]?, a.2 with
  | some x, _ => .ok (some x)
  | none, none => .ok none
  | none, some e => .error e

/-- All items. -/
def Outs.map {β γ : Type} (f : β → γ) (a : Outs β) : Outs γ := (a.1.map f, a.2)

theorem Outs.seq_assoc {β : Type} (a b c : Outs β) : (a.seq b).seq c = a.seq (b.seq c) := by
  obtain ⟨a, _ | e⟩ := a <;> obtain ⟨b, _ | f⟩ := b <;> simp [Outs.seq]

@[simp] theorem Outs.nil_seq {β : Type} (b : Outs β) : Outs.seq ([], none) b = b := by
  simp [Outs.seq]

@[simp] theorem Outs.seq_nil {β : Type} (a : Outs β) : Outs.seq a ([], none) = a := by
  obtain ⟨a, _ | e⟩ := a <;> simp [Outs.seq]

theorem Outs.map_seq {β γ : Type} (f : β → γ) (a b : Outs β) :
    (a.seq b).map f = (a.map f).seq (b.map f) := by
  obtain ⟨a, _ | e⟩ := a <;> simp [Outs.seq, Outs.map]

section
variable {α : Type} (P : Profile)

/-- Everything that an iterator yields. -/
def Iter.outs (it : Iter α) : Outs Item :=
  match hn : it.next P with
  | .error e => ([], some e)
  | .ok (none, _) => ([], none)
  | .ok (some x, it') => Outs.seq ([x], none) (Iter.outs it')
  termination_by it.weight
  decreasing_by exact next_weight P _ _ _ hn

theorem outs_unfold (it : Iter α) : it.outs P = match it.next P with
    | .error e => ([], some e)
    | .ok (none, _) => ([], none)
    | .ok (some x, it') => Outs.seq ([x], none) (it'.outs P) := by
  conv => lhs; rw [Iter.outs]
  split <;> rename_i h <;> simp only [h]

/-- After `None` the stack is exhausted. -/
theorem next_none (it : Iter α) : ∀ {it' : Iter α}, it.next P = .ok (none, it') → it'.stack = [] := by
  induction hw : it.weight using Nat.strong_induction_on generalizing it with
  | _ w ih =>
    intro it' h
    unfold Iter.next at h
    split at h
    · rename_i hs
      cases h; exact hs
    · rename_i e rest hs
      split at h
      · cases h
      · cases h
      · rename_i it2 hst
        have := stepEntry_weight P _ _ _ _ hst
        have h2 : it2.weight < w := by
          rw [← hw]
          simp only [Iter.weight, hs, List.map_cons, List.sum_cons] at this ⊢
          omega
        exact ih _ h2 it2 rfl h

theorem nth_nil (it : Iter α) (h : it.stack = []) (n : Nat) : it.nth P n = .ok none := by
  have hn : it.next P = .ok (none, it) := by
    obtain ⟨k, s⟩ := it
    cases h
    rw [Iter.next]
  induction n with
  | zero => rw [Iter.nth, hn]; rfl
  | succ n ih => rw [Iter.nth, hn]; exact ih

/-- Calls of `next` give one item after the other. -/
theorem nth_outs (n : Nat) : ∀ it : Iter α, it.nth P n = (it.outs P).nth n := by
  induction n with
  | zero =>
    intro it
    rw [Iter.nth, outs_unfold]
    cases it.next P with
    | error e => rfl
    | ok r =>
      obtain ⟨o, it'⟩ := r
      cases o with
      | none => rfl
      | some x => rfl
  | succ n ih =>
    intro it
    rw [Iter.nth, outs_unfold]
    cases hn : it.next P with
    | error e => rfl
    | ok r =>
      obtain ⟨o, it'⟩ := r
      cases o with
      | none => simp only [nth_nil P it' (next_none P it hn)]; rfl
      | some x =>
        simp only [ih it', Outs.nth, Outs.seq, List.singleton_append, List.getElem?_cons_succ]

/-- What remains after one step of the loop. -/
def outsCont : R (Option Item × Iter α) → Outs Item
  | .error e => ([], some e)
  | .ok (none, it) => it.outs P
  | .ok (some x, it) => Outs.seq ([x], none) (it.outs P)

theorem outs_nil (k : Nibbles) : (⟨k, []⟩ : Iter α).outs P = ([], none) := by
  have hn : (⟨k, []⟩ : Iter α).next P = .ok (none, ⟨k, []⟩) := by rw [Iter.next]
  rw [outs_unfold, hn]

theorem outs_cons (k : Nibbles) (e : IterEntry α) (s : List (IterEntry α)) :
    (⟨k, e :: s⟩ : Iter α).outs P = outsCont P ((⟨k, s⟩ : Iter α).stepEntry P e) := by
  rw [outs_unfold, next_cons]
  cases (⟨k, s⟩ : Iter α).stepEntry P e with
  | error err => rfl
  | ok r =>
    obtain ⟨o, it'⟩ := r
    cases o with
    | some x => rfl
    | none => simp only [outsCont]; rw [← outs_unfold]

end

/-- All of a list, one after the other. -/
def Outs.all {β : Type} : List (Outs β) → Outs β
  | [] => ([], none)
  | a :: as => a.seq (Outs.all as)

theorem Outs.map_all {β γ : Type} (f : β → γ) (as : List (Outs β)) :
    (Outs.all as).map f = Outs.all (as.map (Outs.map f)) := by
  induction as with
  | nil => rfl
  | cons a as ih => rw [Outs.all, Outs.map_seq, ih]; rfl

namespace LNode

/-- The entries with keys prefixed by `p`, in the order of the iterator, up to the first node whose path
has more than 64 nibbles. -/
def outs : LNode → Key → Outs (Key × ValOrHash)
  | .empty, _ => ([], none)
  | .hash h, p => ([(p, .hash h)], none)
  | .branch cs v, p =>
    if p.length < 64 then
      (Outs.all ((List.finRange 16).map fun i => outs (cs i) (p ++ [i]))).seq
        (if v = [] then [] else [(p, .val v)], none)
    else ([], some .assertFailed)
  | .ext n c, p => if p.length + n.length ≤ 64 then outs c (p ++ n) else ([], some .assertFailed)
  | .leaf n v, p =>
    if p.length + n.length ≤ 64 then ([(p ++ n, .val v)], none) else ([], some .assertFailed)

end LNode

/-- Items with list keys as the code returns them. -/
def packOuts (a : Outs (Key × ValOrHash)) : Outs Item := a.map fun x => (ofList x.1, x.2)

section
variable {kec : Bytes → H256} {α S : Type} [K : TrieKind α S] [L : KindLaws kec α S] {P : Profile}

theorem advance_outs {w : L.W} : ∀ (l : LNode) (t : Trie α) (p k : Key) (s : List (IterEntry α))
    (r : Outs Item), RepN kec w t l → l.ExtOK → p.length ≤ 64 →
    (⟨ofList (keyAfter l p k), s⟩ : Iter α).outs P = r →
    outsCont P (Iter.advance P t (ofList p) ⟨ofList k, s⟩) = (packOuts (l.outs p)).seq r := by
  intro l
  induction l with
  | empty =>
    intro t p k s r ht _ _ hr
    cases ht
    simp only [keyAfter, LNode.endsInBranch, Bool.false_eq_true, if_false] at hr
    simp only [Iter.advance, R_pure, outsCont, LNode.outs, packOuts, Outs.map, List.map_nil, hr,
      Outs.nil_seq]
  | hash h =>
    intro t p k s r ht _ _ hr
    cases ht
    simp only [keyAfter, LNode.endsInBranch, Bool.false_eq_true, if_false] at hr
    simp only [Iter.advance, R_pure, outsCont, hr, LNode.outs, packOuts, Outs.map, List.map_cons,
      List.map_nil]
  | leaf n v =>
    intro t p k s r ht _ hp hr
    cases ht with
    | leaf a _ _ hn =>
    simp only [keyAfter, LNode.endsInBranch, Bool.false_eq_true, if_false] at hr
    simp only [Iter.advance, LNode.outs]
    by_cases hb : p.length + n.length ≤ 64
    · rw [mergeNibbles_ok P (by omega), if_pos hb]
      simp only [R_bind_ok, R_pure, outsCont, hr, packOuts, Outs.map, List.map_cons, List.map_nil]
    · rw [mergeNibbles_err (by omega) hn (by omega), if_neg hb]
      rfl
  | ext n c ih =>
    intro t p k s r ht he hp hr
    obtain ⟨hn, hbh, he⟩ := he
    cases ht with
    | ext a _ tc _ hk h ho =>
    simp only [Iter.advance, LNode.outs]
    by_cases hb1 : p.length + n.length ≤ 64
    swap
    · rw [mergeNibbles_err (by omega) hk (by omega), if_neg hb1]
      rfl
    rw [mergeNibbles_ok P (by omega), if_pos hb1]
    simp only [R_bind_ok, notHash_eq h]
    cases c with
    | empty => exact hbh.elim
    | leaf => exact hbh.elim
    | ext => exact hbh.elim
    | hash hh =>
      exact ih tc (p ++ n) k s r h he (by simp; omega) hr
    | branch cs v =>
      refine ih tc (p ++ n) k _ r h he (by simp; omega) ?_
      rw [outs_cons]
      simp only [keyAfter, LNode.endsInBranch, if_true, Iter.stepEntry] at hr ⊢
      rw [ofList_count, truncateBack_ok P (by simp; omega) (by simp; omega)]
      simp only [R_bind_ok, R_pure, outsCont]
      rw [← hr]
      congr 3
      simp only [List.dropLast_eq_take, List.length_append, List.length_take, List.take_take]
      rw [show min (min (p.length + n.length - 1) (p.length + n.length) - n.length)
        (p.length + n.length - 1) = p.length - 1 by omega]
      rw [List.take_append_of_le_length (by omega)]
  | branch cs v ih =>
    intro t p k s r ht he hp hr
    cases ht with
    | branch a tcs _ _ h ho =>
    simp only [Iter.advance, pushNibbleBack_eq_mergeNibble, LNode.outs]
    by_cases hb1 : p.length < 64
    swap
    · rw [mergeNibble_err (.inl (by rw [ofList_count]; omega)), if_neg hb1]
      rfl
    rw [if_pos hb1]
    simp only [keyAfter, LNode.endsInBranch, if_true] at hr
    have hka : ∀ i : Fin 16, keyAfter (cs i) (p ++ [i]) p = p := by
      intro i; simp [keyAfter]
    -- the loop over the children, from the last one
    have loop : ∀ m : Nat, m ≤ 15 →
        (⟨ofList p, .branch tcs v (16 - m) :: s⟩ : Iter α).outs P =
          (packOuts (Outs.seq (Outs.all
            (((List.finRange 16).drop (16 - m)).map fun i => (cs i).outs (p ++ [i])))
            (if v = [] then [] else [(p, .val v)], none))).seq r := by
      intro m
      induction m with
      | zero =>
        intro _
        rw [outs_cons]
        simp only [Iter.stepEntry]
        rw [if_neg (by decide), if_pos (by decide), truncate_one hp]
        simp only [R_bind_ok, R_pure]
        have : (List.finRange 16).drop (16 - 0) = [] := by decide
        rw [this]
        cases v with
        | nil =>
          simp only [List.isEmpty_nil, outsCont, hr, List.map_nil, Outs.all, if_true, packOuts,
            Outs.map, Outs.nil_seq, List.map_nil]
        | cons b v =>
          simp only [List.isEmpty_cons, outsCont, hr, List.map_nil, Outs.all, packOuts,
            Outs.map, Outs.nil_seq, List.map_nil]
          rfl
      | succ m ihm =>
        intro hm
        rw [outs_cons]
        simp only [Iter.stepEntry]
        rw [if_pos (show 1 ≤ 16 - (m + 1) ∧ 16 - (m + 1) ≤ 15 from ⟨by omega, by omega⟩),
          show idx16 (16 - (m + 1)) = _ from idx16_val ⟨16 - (m + 1), by omega⟩, R_bind_ok,
          mergeNibble_ok P (by omega) (by omega), R_bind_ok]
        have e : 16 - (m + 1) + 1 = 16 - m := by omega
        have hd : (16 - (m + 1)) < 16 := by omega
        have := ih ⟨16 - (m + 1), hd⟩ (tcs ⟨16 - (m + 1), hd⟩) (p ++ [⟨16 - (m + 1), hd⟩]) p
          (.branch tcs v (16 - (m + 1) + 1) :: s) _ (h _) (he _) (by simp; omega)
          (by rw [hka, e, ihm (by omega)])
        rw [this]
        have hdrop := finRange_drop ⟨16 - (m + 1), hd⟩
        simp only [e] at hdrop
        rw [hdrop]
        simp only [List.map_cons, Outs.all, packOuts, Outs.map_seq, Outs.seq_assoc]
    rw [mergeNibble_ok P (by omega) (by omega), R_bind_ok]
    have := ih 0 (tcs 0) (p ++ [0]) p (.branch tcs v 1 :: s) _ (h _) (he _) (by simp; omega)
      ((congrArg (fun q => (⟨ofList q, .branch tcs v 1 :: s⟩ : Iter α).outs P) (hka 0)).trans
        (loop 15 (by omega)))
    refine this.trans ?_
    have hdrop := finRange_drop 0
    simp only [Fin.val_zero, List.drop_zero] at hdrop
    rw [hdrop]
    simp only [List.map_cons, Outs.all, packOuts, Outs.map_seq, Outs.seq_assoc]
    rfl

/-- The iterator yields the entries in order, up to the first node with a long path. -/
theorem iter_outs {w : L.W} {l : LNode} {t : Trie α} (ht : RepN kec w t l) (he : l.ExtOK) :
    t.iter.outs P = packOuts (l.outs []) := by
  unfold Trie.iter
  rw [outs_cons]
  have := advance_outs (P := P) l t [] [] [] _ ht he (by simp) (outs_nil P _)
  simp only [Iter.stepEntry, default_eq]
  rw [this, Outs.seq_nil]

end
end EthTrie
