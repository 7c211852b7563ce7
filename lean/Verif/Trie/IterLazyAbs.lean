import Verif.Trie.IterLazy
import Verif.Trie.ItemsAbs

/-!
# Which entries the iterator yields before a panic
-/

namespace EthTrie

open Nibbles Spec

/-- Is the key short enough for the iterator? -/
def isShort (x : Key × ValOrHash) : Bool := decide (x.1.length ≤ 64)

/-- The entries before the first one with a key of more than 64 nibbles. -/
def shortOuts (J : List (Key × ValOrHash)) : Outs (Key × ValOrHash) :=
  (J.takeWhile isShort, if J.all isShort then none else some .assertFailed)

theorem shortOuts_append (J J' : List (Key × ValOrHash)) :
    shortOuts (J ++ J') = (shortOuts J).seq (shortOuts J') := by
  induction J with
  | nil => rw [List.nil_append, show shortOuts [] = ([], none) by simp [shortOuts], Outs.nil_seq]
  | cons x J ih =>
    cases hx : isShort x
    · simp [shortOuts, Outs.seq, hx]
    · have e : ∀ J, shortOuts (x :: J) = Outs.seq ([x], none) (shortOuts J) := by
        intro J
        simp only [shortOuts, Outs.seq, List.takeWhile_cons, List.all_cons, hx]
        rw [Bool.true_and]
        rfl
      rw [List.cons_append, e, e, ih, Outs.seq_assoc]

theorem shortOuts_flatten (Js : List (List (Key × ValOrHash))) :
    shortOuts Js.flatten = Outs.all (Js.map shortOuts) := by
  induction Js with
  | nil => simp [shortOuts, Outs.all]
  | cons J Js ih => rw [List.flatten_cons, shortOuts_append, ih]; rfl

theorem shortOuts_long {J : List (Key × ValOrHash)} (h0 : J ≠ [])
    (h : ∀ x, J.head? = some x → 64 < x.1.length) : shortOuts J = ([], some .assertFailed) := by
  cases J with
  | nil => exact absurd rfl h0
  | cons x J =>
    have := h x rfl
    have h1 : isShort x = false := by simp [isShort]; omega
    simp [shortOuts, h1]

theorem shortOuts_nth (J : List (Key × ValOrHash)) (n : Nat) : (shortOuts J).nth n =
    if (J.take (n + 1)).all isShort then .ok J[n]? else .error .assertFailed := by
  induction J generalizing n with
  | nil => simp [shortOuts, Outs.nth]
  | cons x J ih =>
    cases hx : isShort x
    · simp [shortOuts, Outs.nth, hx]
    · cases n with
      | zero => simp [shortOuts, Outs.nth, hx]
      | succ n =>
        have := ih n
        simp only [shortOuts, Outs.nth, List.takeWhile_cons, hx, if_true,
          List.getElem?_cons_succ, List.all_cons, Bool.true_and, List.take_succ_cons] at this ⊢
        exact this

namespace LNode

theorem items_length {l : LNode} {p : Key} {x : Key × ValOrHash} (h : x ∈ l.items p) :
    p.length ≤ x.1.length := by
  obtain ⟨q, hq, -⟩ := (mem_items l p x.1).1 h
  rw [hq, List.length_append]; omega

theorem Canon.items_ne_nil {l : LNode} (hc : l.Canon) (h : l ≠ .empty) (p : Key) : l.items p ≠ [] := by
  obtain ⟨q, hq⟩ := hc.exists_key h
  obtain ⟨v, hv⟩ := Option.ne_none_iff_exists'.1 hq
  have := (mem_items (v := v) l p (p ++ q)).2 ⟨q, rfl, hv⟩
  exact List.ne_nil_of_mem this

/-- On canonical tries: everything before the first key of more than 64 nibbles. -/
theorem Canon.outs_eq : ∀ {l : LNode} {p : Key}, l.Canon → p.length ≤ 64 →
    l.outs p = shortOuts (l.items p) := by
  intro l
  induction l with
  | empty => intro p _ _; simp [outs, items, shortOuts, isShort]
  | hash h => intro p _ hp; simp [outs, items, shortOuts, isShort, hp]
  | leaf n v =>
    intro p _ hp
    by_cases h : p.length + n.length ≤ 64
    · simp [outs, items, shortOuts, isShort, h]
    · simp [outs, items, shortOuts, isShort, h]
  | ext n c ih =>
    intro p hc hp
    by_cases h : p.length + n.length ≤ 64
    · rw [outs, if_pos h, ih hc.2.2 (by simpa using h), items]
    · rw [outs, if_neg h, items, shortOuts_long]
      · refine hc.2.2.items_ne_nil (fun e => ?_) _
        have := hc.2.1
        rw [e] at this
        exact this
      · intro x hx
        have := items_length (List.mem_of_mem_head? hx)
        simp only [List.length_append] at this
        omega
  | branch cs v ih =>
    intro p hc hp
    by_cases h : p.length < 64
    · rw [outs, if_pos h, items, shortOuts_append, shortOuts_flatten, List.map_map]
      congr 1
      · congr 1
        apply List.map_congr_left
        intro i _
        exact ih i (hc.1 i) (by simp; omega)
      · split <;> simp [shortOuts, isShort, hp]
    · rw [outs, if_neg h, items]
      have hne : ∃ i, cs i ≠ .empty := by
        rcases hc.2 with ⟨i, j, -, hi, -⟩ | ⟨-, i, hi⟩
        · exact ⟨i, hi⟩
        · exact ⟨i, hi⟩
      obtain ⟨i, hi⟩ := hne
      have hne := (hc.1 i).items_ne_nil hi (p ++ [i])
      have hf : ((List.finRange 16).map fun i => items (cs i) (p ++ [i])).flatten ≠ [] := by
        intro e
        rw [List.flatten_eq_nil_iff] at e
        exact hne (e _ (List.mem_map.2 ⟨i, List.mem_finRange i, rfl⟩))
      rw [shortOuts_append, shortOuts_long hf, Outs.seq]
      intro x hx
      obtain ⟨J, hJ, hx⟩ := List.mem_flatten.1 (List.mem_of_mem_head? hx)
      obtain ⟨j, -, rfl⟩ := List.mem_map.1 hJ
      have := items_length hx
      simp only [List.length_append, List.length_singleton] at this
      omega

end LNode

theorem Outs.seq_prefix {β : Type} {a b : Outs β} {J J' : List β} (h1 : a.1 <+: J) (h2 : b.1 <+: J')
    (h3 : a.2 = none → a.1 = J) (h4 : b.2 = none → b.1 = J') :
    (a.seq b).1 <+: J ++ J' ∧ ((a.seq b).2 = none → (a.seq b).1 = J ++ J') := by
  obtain ⟨a, _ | e⟩ := a
  · have := h3 rfl
    dsimp only at this
    subst this
    exact ⟨(List.prefix_append_right_inj _).2 h2, fun h => congrArg _ (h4 h)⟩
  · exact ⟨h1.trans (List.prefix_append _ _), fun h => by cases h⟩

theorem Outs.seq_none {β : Type} {a b : Outs β} : (a.seq b).2 = none ↔ a.2 = none ∧ b.2 = none := by
  obtain ⟨a, _ | e⟩ := a <;> simp [Outs.seq]

theorem Outs.all_none {β : Type} {as : List (Outs β)} : (Outs.all as).2 = none ↔ ∀ a ∈ as, a.2 = none := by
  induction as with
  | nil => simp [Outs.all]
  | cons a as ih => rw [Outs.all, Outs.seq_none, ih, List.forall_mem_cons]

namespace LNode

theorem outs_prefix : ∀ (l : LNode) (p : Key),
    (l.outs p).1 <+: l.items p ∧ ((l.outs p).2 = none → (l.outs p).1 = l.items p) := by
  intro l
  induction l with
  | empty => intro p; simp [outs, items]
  | hash h => intro p; simp [outs, items]
  | leaf n v => intro p; rw [outs, items]; split <;> simp
  | ext n c ih =>
    intro p; rw [outs, items]; split
    · exact ih _
    · simp
  | branch cs v ih =>
    intro p
    rw [outs, items]
    split
    · have hl : ∀ L : List (Fin 16),
          (Outs.all (L.map fun i => outs (cs i) (p ++ [i]))).1 <+:
            (L.map fun i => items (cs i) (p ++ [i])).flatten ∧
          ((Outs.all (L.map fun i => outs (cs i) (p ++ [i]))).2 = none →
            (Outs.all (L.map fun i => outs (cs i) (p ++ [i]))).1 =
              (L.map fun i => items (cs i) (p ++ [i])).flatten) := by
        intro L
        induction L with
        | nil => simp [Outs.all]
        | cons i L ihL =>
          simp only [List.map_cons, Outs.all, List.flatten_cons]
          exact Outs.seq_prefix (ih i _).1 ihL.1 (ih i _).2 ihL.2
      exact Outs.seq_prefix (hl _).1 List.prefix_rfl (hl _).2 (fun _ => rfl)
    · simp

theorem outs_error : ∀ (l : LNode) (p : Key), (l.outs p).2 = none ∨ (l.outs p).2 = some .assertFailed := by
  have key : ∀ a b : Outs (Key × ValOrHash), (a.2 = none ∨ a.2 = some .assertFailed) →
      (b.2 = none ∨ b.2 = some .assertFailed) → (a.seq b).2 = none ∨ (a.seq b).2 = some .assertFailed := by
    rintro ⟨a, _ | e⟩ b h1 h2
    · exact h2
    · exact h1
  intro l
  induction l with
  | empty => intro p; simp [outs]
  | hash h => intro p; simp [outs]
  | leaf n v => intro p; rw [outs]; split <;> simp
  | ext n c ih => intro p; rw [outs]; split <;> simp [ih]
  | branch cs v ih =>
    intro p
    rw [outs]
    split
    · refine key _ _ ?_ (.inl rfl)
      generalize List.finRange 16 = L
      induction L with
      | nil => simp [Outs.all]
      | cons i L ihL => exact key _ _ (ih i _) ihL
    · simp

theorem outs_bound : ∀ (l : LNode) (p : Key), p.length ≤ 64 →
    ((l.outs p).2 = none ↔ l.Bound (64 - p.length)) := by
  intro l
  induction l with
  | empty => intro p _; simp [outs, Bound]
  | hash h => intro p _; simp [outs, Bound]
  | leaf n v =>
    intro p hp
    rw [outs, Bound]
    split
    · simp; omega
    · simp; omega
  | ext n c ih =>
    intro p hp
    rw [outs, Bound]
    split
    · rename_i h
      rw [ih _ (by simpa using h), List.length_append, ← Nat.sub_sub]
      exact ⟨fun hb => ⟨by omega, hb⟩, fun hb => hb.2⟩
    · rename_i h
      constructor
      · intro e; cases e
      · intro hb; have := hb.1; omega
  | branch cs v ih =>
    intro p hp
    rw [outs, Bound]
    split
    · rename_i h
      rw [Outs.seq_none, Outs.all_none]
      constructor
      · rintro ⟨h1, -⟩
        refine ⟨by omega, fun i => ?_⟩
        have := (ih i (p ++ [i]) (by simp; omega)).1
          (h1 _ (List.mem_map.2 ⟨i, List.mem_finRange i, rfl⟩))
        rwa [List.length_append, ← Nat.sub_sub] at this
      · rintro ⟨-, h1⟩
        refine ⟨fun a ha => ?_, rfl⟩
        obtain ⟨i, -, rfl⟩ := List.mem_map.1 ha
        refine (ih i (p ++ [i]) (by simp; omega)).2 ?_
        rw [List.length_append, ← Nat.sub_sub]
        exact h1 i
    · rename_i h
      constructor
      · intro e; cases e
      · intro hb; have := hb.1; omega

end LNode
end EthTrie
