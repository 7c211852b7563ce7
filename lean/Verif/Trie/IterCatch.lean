import Verif.Trie.IterLazyAbs

/-!
# Iterators that are used again after a panic of `next` was caught (`src/trie_ops.rs:160-261`)

The functions of `Verif/Trie/Iter.lean` once more, but with the iterator that a panic leaves behind.  The
code pops an entry off the stack, pushes others and sets the key register before it puts keys together,
which is what can panic.
-/

namespace EthTrie

open Nibbles Spec

section
variable {α : Type} (P : Profile)

/-- `advance_iter_to_next_empty_leaf_or_hash_node` (`src/trie_ops.rs:161-196`). -/
def Iter.advanceC : Trie α → Nibbles → Iter α → R (Option Item) × Iter α
  | .empty _, _, it => (.ok none, it)
  | .hash _ h, k, it => (.ok (some (k, .hash h)), it)
  | .branch _ cs v, k, it =>
    let it' : Iter α := ⟨k, .branch cs v 1 :: it.stack⟩
    match k.pushNibbleBack P 0 with
    | .error e => (.error e, it')
    | .ok k' => Iter.advanceC (cs 0) k' it'
  | .ext _ n c, k, it =>
    let it' := if notHash c then ⟨it.key, .ext n.count :: it.stack⟩ else it
    match k.mergeNibbles P n with
    | .error e => (.error e, it')
    | .ok k' => Iter.advanceC c k' it'
  | .leaf _ n v, k, it =>
    match k.mergeNibbles P n with
    | .error e => (.error e, it)
    | .ok k' => (.ok (some (k', .val v)), it)

/-- The body of the `while` loop of `next` (`src/trie_ops.rs:205-257`) for a popped entry. -/
def Iter.stepEntryC (it : Iter α) : IterEntry α → R (Option Item) × Iter α
  | .root t => Iter.advanceC P t Nibbles.default it
  | .ext n =>
    match it.key.truncateBack P n with
    | .error e => (.error e, it)
    | .ok k => (.ok none, ⟨k, it.stack⟩)
  | .branch cs v nib =>
    if 1 ≤ nib ∧ nib ≤ 15 then
      match idx16 nib with
      | .error e => (.error e, it)
      | .ok i =>
        let it' : Iter α := ⟨it.key, .branch cs v (nib + 1) :: it.stack⟩
        match it.key.mergeNibble P nib with
        | .error e => (.error e, it')
        | .ok k => Iter.advanceC P (cs i) k it'
    else if nib = 16 then
      let res : Option Item := match v.isEmpty with
        | false => some (it.key, .val v)
        | true => none
      match (if !it.key.isEmpty then it.key.truncateBack P 1 else pure it.key) with
      | .error e => (.error e, it)
      | .ok k => (.ok res, ⟨k, it.stack⟩)
    else (.error .unreachableCode, it)

/-- The result together with the iterator, if there is no panic. -/
def keepIter (r : R (Option Item) × Iter α) : R (Option Item × Iter α) := r.1.map (·, r.2)

/-- Without panics it is the same function. -/
theorem advanceC_eq (t : Trie α) : ∀ (k : Nibbles) (it : Iter α),
    keepIter (Iter.advanceC P t k it) = Iter.advance P t k it := by
  induction t with
  | empty a => intro k it; rfl
  | hash a h => intro k it; rfl
  | leaf a n v =>
    intro k it
    simp only [Iter.advanceC, Iter.advance]
    cases k.mergeNibbles P n <;> rfl
  | ext a n c ih =>
    intro k it
    simp only [Iter.advanceC, Iter.advance]
    cases k.mergeNibbles P n with
    | error e => rfl
    | ok k' => exact ih _ _
  | branch a cs v ih =>
    intro k it
    simp only [Iter.advanceC, Iter.advance]
    cases k.pushNibbleBack P 0 with
    | error e => rfl
    | ok k' => exact ih _ _ _

theorem stepEntryC_eq (it : Iter α) (e : IterEntry α) :
    keepIter (it.stepEntryC P e) = it.stepEntry P e := by
  cases e with
  | root t => exact advanceC_eq P t _ _
  | ext n =>
    simp only [Iter.stepEntryC, Iter.stepEntry]
    cases it.key.truncateBack P n <;> rfl
  | branch cs v nib =>
    simp only [Iter.stepEntryC, Iter.stepEntry]
    split
    · cases idx16 nib with
      | error e => rfl
      | ok i =>
        rw [R_bind_ok]
        cases it.key.mergeNibble P nib with
        | error e => rfl
        | ok k => exact advanceC_eq P _ _ _
    · split
      · cases (if !it.key.isEmpty then it.key.truncateBack P 1 else pure it.key) <;> rfl
      · rfl

theorem advanceC_weight (t : Trie α) : ∀ (k : Nibbles) (it : Iter α),
    (Iter.advanceC P t k it).2.weight ≤ it.weight + t.isize := by
  induction t with
  | empty a => intro k it; simp [Iter.advanceC]
  | hash a hh => intro k it; simp [Iter.advanceC]
  | leaf a n v => intro k it; simp only [Iter.advanceC]; split <;> simp
  | ext a n c ih =>
    intro k it
    simp only [Iter.advanceC]
    have hw : (if notHash c then (⟨it.key, .ext n.count :: it.stack⟩ : Iter α) else it).weight ≤
        it.weight + 1 := by
      split
      · simp [Iter.weight, IterEntry.weight]; omega
      · omega
    simp only [Trie.isize]
    split
    · dsimp only; omega
    · refine Nat.le_trans (ih _ _) ?_; omega
  | branch a cs v ih =>
    intro k it
    simp only [Iter.advanceC]
    have e : List.finRange 16 = 0 :: (List.finRange 16).drop 1 := by decide
    have hw : (⟨k, .branch cs v 1 :: it.stack⟩ : Iter α).weight + (cs 0).isize ≤
        it.weight + (Trie.branch a cs v).isize := by
      simp only [Iter.weight, List.map_cons, List.sum_cons, IterEntry.weight, Trie.isize]
      conv => rhs; rw [e]
      simp only [List.map_cons, List.sum_cons]
      omega
    split
    · dsimp only; omega
    · exact Nat.le_trans (ih _ _ _) hw

theorem stepEntryC_weight (it : Iter α) (e : IterEntry α) :
    (it.stepEntryC P e).2.weight < it.weight + e.weight := by
  cases e with
  | root t =>
    have := advanceC_weight P t Nibbles.default it
    simp only [IterEntry.weight, Iter.stepEntryC]; omega
  | ext n =>
    simp only [Iter.stepEntryC]
    split <;> simp [Iter.weight, IterEntry.weight]
  | branch cs v nib =>
    have hpos : 0 < (IterEntry.branch cs v nib).weight := by simp only [IterEntry.weight]; omega
    simp only [Iter.stepEntryC]
    split
    · rename_i hn
      split
      · dsimp only; omega
      · rename_i i hi
        have hi' : i.val = nib := by
          unfold idx16 at hi
          split at hi <;> simp at hi
          rw [← hi]
        subst hi'
        have e : (List.finRange 16).drop i.val = i :: (List.finRange 16).drop (i.val + 1) := by
          rw [List.drop_eq_getElem_cons (by simp)]
          simp
        have hw : (⟨it.key, .branch cs v (i.val + 1) :: it.stack⟩ : Iter α).weight + (cs i).isize <
            it.weight + (IterEntry.branch cs v i.val).weight := by
          simp only [Iter.weight, List.map_cons, List.sum_cons, IterEntry.weight]
          conv => rhs; rw [e]
          simp only [List.map_cons, List.sum_cons]
          omega
        split
        · dsimp only; omega
        · exact Nat.lt_of_le_of_lt (advanceC_weight P _ _ _) hw
    · split
      · split
        · dsimp only; omega
        · simp only [Iter.weight] at hpos ⊢; omega
      · dsimp only; omega

/-- `Iterator::next` (`src/trie_ops.rs:202-260`), with the iterator that it leaves behind whether or not
it panics. -/
def Iter.nextC (it : Iter α) : R (Option Item) × Iter α :=
  match hs : it.stack with
  | [] => (.ok none, it)
  | e :: rest =>
    match hst : (⟨it.key, rest⟩ : Iter α).stepEntryC P e with
    | (.error err, it') => (.error err, it')
    | (.ok (some x), it') => (.ok (some x), it')
    | (.ok none, it') => Iter.nextC it'
  termination_by it.weight
  decreasing_by
    have := stepEntryC_weight P ⟨it.key, rest⟩ e
    rw [hst] at this
    simp only [Iter.weight, hs, List.map_cons, List.sum_cons] at this ⊢
    omega

theorem nextC_cons (k : Nibbles) (e : IterEntry α) (s : List (IterEntry α)) :
    (⟨k, e :: s⟩ : Iter α).nextC P = match (⟨k, s⟩ : Iter α).stepEntryC P e with
      | (.error err, it') => (.error err, it')
      | (.ok (some x), it') => (.ok (some x), it')
      | (.ok none, it') => Iter.nextC P it' := by
  conv => lhs; rw [Iter.nextC]
  split
  · rename_i h; simp at h
  · rename_i e' s' h
    simp only [List.cons.injEq] at h
    obtain ⟨h1, h2⟩ := h
    subst h1 h2
    split <;> rename_i h <;> simp only at h <;> simp only [h]

theorem nextC_nil (k : Nibbles) : (⟨k, []⟩ : Iter α).nextC P = (.ok none, ⟨k, []⟩) := by
  rw [Iter.nextC]

/-- Without panics it is the same function. -/
theorem nextC_eq (it : Iter α) : keepIter (it.nextC P) = it.next P := by
  induction hw : it.weight using Nat.strong_induction_on generalizing it with
  | _ w ih =>
    obtain ⟨k, s⟩ := it
    cases s with
    | nil => rw [nextC_nil, Iter.next]; rfl
    | cons e s =>
      rw [nextC_cons, next_cons, ← stepEntryC_eq]
      have hlt := stepEntryC_weight P ⟨k, s⟩ e
      cases hst : (⟨k, s⟩ : Iter α).stepEntryC P e with
      | mk r it' =>
        rw [hst] at hlt
        cases r with
        | error err => rfl
        | ok o =>
          cases o with
          | some x => rfl
          | none =>
            refine ih _ ?_ it' rfl
            rw [← hw]
            simp only [Iter.weight, List.map_cons, List.sum_cons] at hlt ⊢
            omega

/-- Every call that is not the last one makes progress. -/
theorem nextC_weight (it : Iter α) :
    (it.nextC P).1 = .ok none ∧ (it.nextC P).2.stack = [] ∨ (it.nextC P).2.weight < it.weight := by
  induction hw : it.weight using Nat.strong_induction_on generalizing it with
  | _ w ih =>
    obtain ⟨k, s⟩ := it
    cases s with
    | nil => rw [nextC_nil]; exact .inl ⟨rfl, rfl⟩
    | cons e s =>
      rw [nextC_cons]
      have hlt := stepEntryC_weight P ⟨k, s⟩ e
      have hlt : ((⟨k, s⟩ : Iter α).stepEntryC P e).2.weight < w := by
        rw [← hw]
        simp only [Iter.weight, List.map_cons, List.sum_cons] at hlt ⊢
        omega
      cases hst : (⟨k, s⟩ : Iter α).stepEntryC P e with
      | mk r it' =>
        rw [hst] at hlt
        cases r with
        | error err => exact .inr hlt
        | ok o =>
          cases o with
          | some x => exact .inr hlt
          | none =>
            rcases ih _ hlt it' rfl with h | h
            · exact .inl h
            · exact .inr (Nat.lt_trans h hlt)

/-- The result of the call number `n` (from 0) of `next`, where panics of earlier calls are caught. -/
def Iter.nthC (it : Iter α) : Nat → R (Option Item)
  | 0 => (it.nextC P).1
  | n + 1 => (it.nextC P).2.nthC n

theorem nthC_nil (it : Iter α) (h : it.stack = []) (n : Nat) : it.nthC P n = .ok none := by
  obtain ⟨k, s⟩ := it
  cases h
  induction n with
  | zero => rw [Iter.nthC, nextC_nil]
  | succ n ih => rw [Iter.nthC, nextC_nil]; exact ih

/-- Everything that an iterator returns: an item or a panic each time. -/
def Iter.events (it : Iter α) : List (Except Panic Item) :=
  match hn : it.nextC P with
  | (.error e, it') => .error e :: Iter.events it'
  | (.ok none, _) => []
  | (.ok (some x), it') => .ok x :: Iter.events it'
  termination_by it.weight
  decreasing_by
    all_goals
      have := nextC_weight P it
      rw [hn] at this
      simpa using this

theorem events_unfold (it : Iter α) : it.events P = match it.nextC P with
    | (.error e, it') => .error e :: it'.events P
    | (.ok none, _) => []
    | (.ok (some x), it') => .ok x :: it'.events P := by
  conv => lhs; rw [Iter.events]
  split <;> rename_i h <;> simp only [h]

/-- The event number `n` as a result of `next`. -/
def eventAt {β : Type} (E : List (Except Panic β)) (n : Nat) : R (Option β) :=
  match E[n]? with
  | none => .ok none
  | some (.ok x) => .ok (some x)
  | some (.error e) => .error e

theorem nthC_events (n : Nat) : ∀ it : Iter α, it.nthC P n = eventAt (it.events P) n := by
  induction n with
  | zero =>
    intro it
    rw [Iter.nthC, events_unfold]
    obtain ⟨r, it'⟩ := it.nextC P
    rcases r with e | (_ | x) <;> rfl
  | succ n ih =>
    intro it
    have hw := nextC_weight P it
    rw [Iter.nthC, events_unfold]
    rcases hn : it.nextC P with ⟨r, it'⟩
    rcases r with e | (_ | x)
    · simp only [ih it', eventAt, List.getElem?_cons_succ]
    · have hs : it'.stack = [] := by
        by_contra hs
        rw [hn] at hw
        obtain ⟨-, h⟩ | h := hw
        · exact hs h
        · exact hs (next_none P it (by rw [← nextC_eq, hn]; rfl))
      simp only [nthC_nil P it' hs]; rfl
    · simp only [ih it', eventAt, List.getElem?_cons_succ]

/-- What remains after one step of the loop. -/
def eventsCont (r : R (Option Item) × Iter α) : List (Except Panic Item) :=
  match r.1 with
  | .error e => .error e :: r.2.events P
  | .ok none => r.2.events P
  | .ok (some x) => .ok x :: r.2.events P

theorem events_nil (k : Nibbles) : (⟨k, []⟩ : Iter α).events P = [] := by
  rw [events_unfold, nextC_nil]

theorem events_cons (k : Nibbles) (e : IterEntry α) (s : List (IterEntry α)) :
    (⟨k, e :: s⟩ : Iter α).events P = eventsCont P ((⟨k, s⟩ : Iter α).stepEntryC P e) := by
  rw [events_unfold, nextC_cons]
  rcases (⟨k, s⟩ : Iter α).stepEntryC P e with ⟨r, it'⟩
  rcases r with e | (_ | x)
  · rfl
  · simp only [eventsCont]; rw [← events_unfold]
  · rfl

end

namespace LNode

/-- What the iterator returns for the entries with keys prefixed by `p`. -/
def events : LNode → Key → List (Except Panic (Key × ValOrHash))
  | .empty, _ => []
  | .hash h, p => [.ok (p, .hash h)]
  | .branch cs v, p =>
    (if p.length < 64 then ((List.finRange 16).map fun i => events (cs i) (p ++ [i])).flatten
      else List.replicate 16 (.error .assertFailed)) ++ (if v = [] then [] else [.ok (p, .val v)])
  | .ext n c, p => if p.length + n.length ≤ 64 then events c (p ++ n) else [.error .assertFailed]
  | .leaf n v, p => [if p.length + n.length ≤ 64 then .ok (p ++ n, .val v) else .error .assertFailed]

/-- No extension to a branch leads from a path of at most 64 nibbles to a longer one. -/
def NoCross : LNode → Nat → Prop
  | .empty, _ => True
  | .hash _, _ => True
  | .leaf _ _, _ => True
  | .ext n c, d => ((∃ cs v, c = .branch cs v) → d ≤ 64 → d + n.length ≤ 64) ∧ c.NoCross (d + n.length)
  | .branch cs _, d => ∀ i, (cs i).NoCross (d + 1)

end LNode

/-- Events with list keys as the code returns them. -/
def packEvents (a : List (Except Panic (Key × ValOrHash))) : List (Except Panic Item) :=
  a.map (Except.map fun x => (ofList x.1, x.2))

theorem packEvents_append (a b : List (Except Panic (Key × ValOrHash))) :
    packEvents (a ++ b) = packEvents a ++ packEvents b := by simp [packEvents]

section
variable {kec : Bytes → H256} {α S : Type} [K : TrieKind α S] [L : KindLaws kec α S] {P : Profile}

theorem advance_events {w : L.W} : ∀ (l : LNode) (t : Trie α) (p k : Key) (s : List (IterEntry α)),
    RepN kec w t l → l.ExtOK → l.NoCross p.length → p.length ≤ 64 →
    eventsCont P (Iter.advanceC P t (ofList p) ⟨ofList k, s⟩) =
      packEvents (l.events p) ++ (⟨ofList (keyAfter l p k), s⟩ : Iter α).events P := by
  intro l
  induction l with
  | empty =>
    intro t p k s ht _ _ _
    cases ht
    rfl
  | hash h =>
    intro t p k s ht _ _ _
    cases ht
    rfl
  | leaf n v =>
    intro t p k s ht _ _ hp
    cases ht with
    | leaf a _ _ hn =>
    simp only [Iter.advanceC, LNode.events]
    by_cases hb : p.length + n.length ≤ 64
    · rw [mergeNibbles_ok P (by omega), if_pos hb]
      rfl
    · rw [mergeNibbles_err (by omega) hn (by omega), if_neg hb]
      rfl
  | ext n c ih =>
    intro t p k s ht he hc hp
    obtain ⟨hn, hbh, he⟩ := he
    obtain ⟨hc1, hc⟩ := hc
    cases ht with
    | ext a _ tc _ hk h ho =>
    simp only [Iter.advanceC, LNode.events]
    by_cases hb1 : p.length + n.length ≤ 64
    swap
    · rw [mergeNibbles_err (by omega) hk (by omega), if_neg hb1]
      cases c with
      | empty => exact hbh.elim
      | leaf => exact hbh.elim
      | ext => exact hbh.elim
      | hash hh => simp only [notHash_eq h]; rfl
      | branch cs v => exact absurd (hc1 ⟨_, _, rfl⟩ hp) hb1
    rw [mergeNibbles_ok P (by omega), if_pos hb1]
    simp only [notHash_eq h]
    cases c with
    | empty => exact hbh.elim
    | leaf => exact hbh.elim
    | ext => exact hbh.elim
    | hash hh =>
      exact ih tc (p ++ n) k s h he (by rwa [List.length_append]) (by simp; omega)
    | branch cs v =>
      refine (ih tc (p ++ n) k _ h he (by rwa [List.length_append]) (by simp; omega)).trans ?_
      congr 1
      rw [events_cons]
      simp only [keyAfter, LNode.endsInBranch, if_true, Iter.stepEntryC]
      rw [ofList_count, truncateBack_ok P (by simp; omega) (by simp; omega)]
      simp only [eventsCont]
      congr 3
      simp only [List.dropLast_eq_take, List.length_append, List.length_take, List.take_take]
      rw [show min (min (p.length + n.length - 1) (p.length + n.length) - n.length)
        (p.length + n.length - 1) = p.length - 1 by omega]
      rw [List.take_append_of_le_length (by omega)]
  | branch cs v ih =>
    intro t p k s ht he hc hp
    cases ht with
    | branch a tcs _ _ h ho =>
    simp only [Iter.advanceC, pushNibbleBack_eq_mergeNibble, LNode.events]
    simp only [keyAfter, LNode.endsInBranch, if_true]
    have hka : ∀ i : Fin 16, keyAfter (cs i) (p ++ [i]) p = p := by
      intro i; simp [keyAfter]
    have last : (⟨ofList p, .branch tcs v 16 :: s⟩ : Iter α).events P =
        packEvents (if v = [] then [] else [.ok (p, .val v)]) ++
          (⟨ofList p.dropLast, s⟩ : Iter α).events P := by
      rw [events_cons]
      simp only [Iter.stepEntryC]
      rw [if_neg (by decide), if_pos (by decide), truncate_one hp]
      cases v with
      | nil => rfl
      | cons b v => rfl
    by_cases hb1 : p.length < 64
    swap
    · rw [mergeNibble_err (.inl (by rw [ofList_count]; omega)), if_neg hb1]
      have loop : ∀ m : Nat, m ≤ 15 →
          (⟨ofList p, .branch tcs v (16 - m) :: s⟩ : Iter α).events P =
            List.replicate m (.error .assertFailed) ++
              (⟨ofList p, .branch tcs v 16 :: s⟩ : Iter α).events P := by
        intro m
        induction m with
        | zero => intro _; rfl
        | succ m ihm =>
          intro hm
          rw [events_cons]
          simp only [Iter.stepEntryC]
          rw [if_pos (show 1 ≤ 16 - (m + 1) ∧ 16 - (m + 1) ≤ 15 from ⟨by omega, by omega⟩),
            show idx16 (16 - (m + 1)) = _ from idx16_val ⟨16 - (m + 1), by omega⟩]
          dsimp only
          rw [mergeNibble_err (.inl (by rw [ofList_count]; omega))]
          simp only [eventsCont]
          rw [show 16 - (m + 1) + 1 = 16 - m by omega, ihm (by omega)]
          rfl
      have := loop 15 (by omega)
      simp only [eventsCont]
      rw [this, last, packEvents_append, ← List.append_assoc]
      rfl
    rw [if_pos hb1]
    -- the loop over the children, from the last one
    have loop : ∀ m : Nat, m ≤ 15 →
        (⟨ofList p, .branch tcs v (16 - m) :: s⟩ : Iter α).events P =
          packEvents ((((List.finRange 16).drop (16 - m)).map fun i => (cs i).events (p ++ [i])).flatten)
            ++ (⟨ofList p, .branch tcs v 16 :: s⟩ : Iter α).events P := by
      intro m
      induction m with
      | zero =>
        intro _
        have : (List.finRange 16).drop (16 - 0) = [] := by decide
        rw [this]
        rfl
      | succ m ihm =>
        intro hm
        rw [events_cons]
        simp only [Iter.stepEntryC]
        rw [if_pos (show 1 ≤ 16 - (m + 1) ∧ 16 - (m + 1) ≤ 15 from ⟨by omega, by omega⟩),
          show idx16 (16 - (m + 1)) = _ from idx16_val ⟨16 - (m + 1), by omega⟩]
        dsimp only
        rw [mergeNibble_ok P (by omega) (by omega)]
        have e : 16 - (m + 1) + 1 = 16 - m := by omega
        have hd : (16 - (m + 1)) < 16 := by omega
        have := ih ⟨16 - (m + 1), hd⟩ (tcs ⟨16 - (m + 1), hd⟩) (p ++ [⟨16 - (m + 1), hd⟩]) p
          (.branch tcs v (16 - (m + 1) + 1) :: s) (h _) (he _)
          (by rw [List.length_append]; exact hc _) (by simp; omega)
        rw [hka, e, ihm (by omega)] at this
        rw [e]
        refine this.trans ?_
        have hdrop := finRange_drop ⟨16 - (m + 1), hd⟩
        simp only [e] at hdrop
        rw [hdrop]
        simp only [List.map_cons, List.flatten_cons, packEvents_append, List.append_assoc]
    rw [mergeNibble_ok P (by omega) (by omega)]
    have := ih 0 (tcs 0) (p ++ [0]) p (.branch tcs v 1 :: s) (h _) (he _)
      (by rw [List.length_append]; exact hc _) (by simp; omega)
    refine this.trans ?_
    have hl := loop 15 (by omega)
    rw [hka]
    rw [show (16 - 15 : Nat) = 1 from rfl] at hl
    rw [hl, last]
    have hdrop := finRange_drop 0
    simp only [Fin.val_zero, List.drop_zero] at hdrop
    rw [hdrop]
    simp only [List.map_cons, List.flatten_cons, packEvents_append, List.append_assoc]
    rfl

/-- What the iterator returns if no extension to a branch leads across 64 nibbles. -/
theorem iter_events {w : L.W} {l : LNode} {t : Trie α} (ht : RepN kec w t l) (he : l.ExtOK)
    (hc : l.NoCross 0) : t.iter.events P = packEvents (l.events []) := by
  unfold Trie.iter
  rw [events_cons]
  have := advance_events (P := P) l t [] [] [] ht he hc (by simp)
  simp only [Iter.stepEntryC, default_eq]
  rw [this, events_nil, List.append_nil]

end

/-- The items among the events. -/
def okEvents {β : Type} (E : List (Except Panic β)) : List β := E.filterMap Except.toOption

namespace LNode

/-- The entries with keys of at most 64 nibbles are returned, in order. -/
theorem events_ok : ∀ (l : LNode) (p : Key), p.length ≤ 64 →
    okEvents (l.events p) = (l.items p).filter isShort := by
  intro l
  have long : ∀ (l : LNode) (p : Key), 64 < p.length → (l.items p).filter isShort = [] := by
    intro l p hp
    rw [List.filter_eq_nil_iff]
    intro x hx
    have := items_length hx
    simp only [isShort, decide_eq_true_eq]; omega
  induction l with
  | empty => intro p _; rfl
  | hash h => intro p hp; simp [events, items, okEvents, isShort, hp, Except.toOption]
  | leaf n v =>
    intro p hp
    by_cases h : p.length + n.length ≤ 64 <;>
      simp [events, items, okEvents, isShort, h, Except.toOption]
  | ext n c ih =>
    intro p hp
    rw [events, items]
    split
    · rename_i h; exact ih _ (by simpa using h)
    · rename_i h
      rw [long _ _ (by simp; omega)]
      rfl
  | branch cs v ih =>
    intro p hp
    rw [events, items, okEvents, List.filterMap_append, List.filter_append]
    congr 1
    · split
      · rename_i h
        rw [List.filterMap_flatten, List.filter_flatten, List.map_map, List.map_map]
        congr 1
        apply List.map_congr_left
        intro i _
        exact ih i _ (by simp; omega)
      · rename_i h
        rw [List.filter_flatten, List.map_map]
        symm
        rw [List.flatten_eq_nil_iff.2]
        · rfl
        · intro J hJ
          obtain ⟨i, -, rfl⟩ := List.mem_map.1 hJ
          exact long _ _ (by simp; omega)
    · split <;> simp [isShort, hp, Except.toOption]

theorem events_error : ∀ (l : LNode) (p : Key) (e : Panic), .error e ∈ l.events p → e = .assertFailed := by
  intro l
  induction l with
  | empty => intro p e h; simp [events] at h
  | hash h => intro p e h; simp [events] at h
  | leaf n v =>
    intro p e h
    rw [events, List.mem_singleton] at h
    split at h <;> cases h
    rfl
  | ext n c ih =>
    intro p e h
    rw [events] at h
    split at h
    · exact ih _ _ h
    · simpa using h
  | branch cs v ih =>
    intro p e h
    rw [events, List.mem_append] at h
    rcases h with h | h
    · split at h
      · obtain ⟨J, hJ, h⟩ := List.mem_flatten.1 h
        obtain ⟨i, -, rfl⟩ := List.mem_map.1 hJ
        exact ih i _ _ h
      · have := List.eq_of_mem_replicate h
        cases this; rfl
    · split at h <;> simp at h

end LNode
end EthTrie
