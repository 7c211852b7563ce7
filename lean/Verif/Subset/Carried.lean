import Verif.Subset.Mono

/-!
# Which keys of earlier lists count for a later list of `create_trie_subsets`
-/

namespace EthTrie

open Spec KMap LNode Nibbles

/-- Looking for `k`, one gets past an extension with the nibbles `n`.  Without overflow checks missing
nibbles of `k` count as zeros. -/
def Spec.Enters (P : Profile) (n k : Key) : Prop :=
  n <+: k ∨ (P.overflowChecks = false ∧ k.length < n.length ∧ ∀ d ∈ n, d = 0)

/-- The keys lead to the same child of the root. -/
def LNode.SameChild (P : Profile) (l : LNode) (k k' : Key) : Prop :=
  match l with
  | .branch _ _ => k ≠ [] ∧ k.head? = k'.head?
  | .ext n _ => Enters P n k ∧ Enters P n k'
  | _ => False

namespace LTracked

theorem through_iff {P : Profile} {n : Key} {ks : List Key} :
    through P n ks = [] ↔ ∀ k ∈ ks, ¬ Enters P n k := by
  have key : ∀ k, (∃ r, extRest P n k = .ok (some r)) ↔ Enters P n k := by
    intro k
    unfold extRest Enters
    have hz : (n = List.replicate n.length 0) ↔ ∀ d ∈ n, d = 0 := by
      rw [List.eq_replicate_iff]; simp
    by_cases hl : n.length ≤ k.length
    · rw [if_pos hl]
      by_cases hp : n <+: k
      · simp [hp]
      · simp [hp, hl, Nat.not_lt.2 hl]
    · rw [if_neg hl]
      have hp : ¬ n <+: k := fun h => hl h.length_le
      have hl' := Nat.lt_of_not_le hl
      cases P.overflowChecks with
      | true => simp [hp]
      | false =>
        by_cases hn : n = List.replicate n.length 0
        · simp only [Bool.false_eq_true, if_false, if_pos hn]
          simp only [Except.ok.injEq, Option.some.injEq, exists_eq', hp, hl', true_and, false_or, true_iff]
          exact hz.1 hn
        · simp only [Bool.false_eq_true, if_false, if_neg hn]
          simp only [Except.ok.injEq, reduceCtorEq, exists_false, hp, hl', true_and, false_or, false_iff]
          exact fun h => hn (hz.2 h)
  constructor
  · intro h k hk he
    obtain ⟨r, hr⟩ := (key k).2 he
    have : r ∈ through P n ks := mem_through.2 ⟨k, hk, hr⟩
    rw [h] at this
    cases this
  · intro h
    rw [List.eq_nil_iff_forall_not_mem]
    intro r hr
    obtain ⟨k, hk, e⟩ := mem_through.1 hr
    exact h k hk ((key k).1 ⟨r, e⟩)

theorem through_enters {P : Profile} {n : Key} {k r : Key} (h : extRest P n k = .ok (some r)) :
    Enters P n k := by
  by_contra hn
  have : through P n [k] = [] := through_iff.2 (by simpa using hn)
  have h2 : r ∈ through P n [k] := mem_through.2 ⟨k, by simp, h⟩
  rw [this] at h2
  cases h2

/-- A later list behaves as if the keys of earlier lists that lead to the same child of the root as one
of its keys were in the list. -/
theorem batch_extra {P : Profile} {kec : Bytes → H256} {l : LNode} {prev cur extra : List Key}
    (hcur : cur ≠ [])
    (he : ∀ k, k ∈ extra ↔ k ∈ prev ∧ ∃ k' ∈ cur, l.SameChild P k k') :
    (batch P l prev cur).subset kec = (flagged P l (cur ++ extra)).subset kec := by
  have e1 : (!(prev ++ cur).isEmpty) = true := by simp [hcur]
  have e2 : (!(cur ++ extra).isEmpty) = true := by simp [hcur]
  have hnil : (∀ n c, l ≠ .ext n c) → (∀ cs v, l ≠ .branch cs v) → extra = [] := by
    intro h1 h2
    rw [List.eq_nil_iff_forall_not_mem]
    intro k hk
    obtain ⟨_, k', _, h⟩ := (he k).1 hk
    cases l with
    | ext n c => exact h1 n c rfl
    | branch cs v => exact h2 cs v rfl
    | _ => exact h
  cases l with
  | empty => rw [hnil (by simp) (by simp), List.append_nil]; rfl
  | hash h => rw [hnil (by simp) (by simp), List.append_nil]; rfl
  | leaf n v => rw [hnil (by simp) (by simp), List.append_nil]; rfl
  | ext n c =>
    simp only [batch, flagged, e1, e2, subset, away, touched]
    simp only [if_true, LNode.ext.injEq, true_and]
    by_cases hc : through P n cur = []
    · have hx : through P n (cur ++ extra) = [] := by
        rw [through_append, hc, List.nil_append, through_iff]
        intro k hk _
        obtain ⟨_, k', hk', h⟩ := (he k).1 hk
        exact through_iff.1 hc k' hk' h.2
      rw [hc, hx]
      exact subset_untouched (touched_setTouched _ _) (flagged_touched _ _ _)
        (by rw [node_setTouched, flagged_node, flagged_node])
    · have hne : (!(through P n cur).isEmpty) = !(through P n (prev ++ cur)).isEmpty := by
        rw [through_append]; cases h : through P n cur <;> simp_all
      rw [hne, ← flagged_touched P c, setTouched_self]
      congr 1
      obtain ⟨k', hk', hen⟩ : ∃ k' ∈ cur, Enters P n k' := by
        by_contra hno
        apply hc
        rw [through_iff]
        exact fun k hk hek => hno ⟨k, hk, hek⟩
      apply flagged_congr
      intro r
      rw [mem_through, mem_through]
      constructor
      · rintro ⟨k, hk, hr⟩
        rcases List.mem_append.1 hk with hk | hk
        · exact ⟨k, List.mem_append_right _ ((he k).2 ⟨hk, k', hk', through_enters hr, hen⟩), hr⟩
        · exact ⟨k, List.mem_append_left _ hk, hr⟩
      · rintro ⟨k, hk, hr⟩
        rcases List.mem_append.1 hk with hk | hk
        · exact ⟨k, List.mem_append_right _ hk, hr⟩
        · exact ⟨k, List.mem_append_left _ ((he k).1 hk).1, hr⟩
  | branch cs v =>
    simp only [batch, flagged, e1, e2, subset, away, touched]
    simp only [if_true, LNode.branch.injEq, and_true]
    funext i
    by_cases hc : down i cur = []
    · have hx : down i (cur ++ extra) = [] := by
        rw [down_append, hc, List.nil_append, List.eq_nil_iff_forall_not_mem]
        intro k hk
        obtain ⟨_, k', hk', h⟩ := (he _).1 (mem_down.1 hk)
        obtain ⟨_, h⟩ := h
        cases k' with
        | nil => cases h
        | cons d k' =>
          cases h
          have := mem_down.2 hk'
          rw [hc] at this
          cases this
      rw [hc, hx]
      exact subset_untouched (touched_setTouched _ _) (flagged_touched _ _ _)
        (by rw [node_setTouched, flagged_node, flagged_node])
    · have hne : (!(down i cur).isEmpty) = !(down i (prev ++ cur)).isEmpty := by
        rw [down_append]; cases h : down i cur <;> simp_all
      rw [hne, ← flagged_touched P (cs i), setTouched_self]
      congr 1
      obtain ⟨k', hk'⟩ := List.exists_mem_of_ne_nil _ hc
      apply flagged_congr
      intro r
      rw [mem_down, mem_down, List.mem_append, List.mem_append, he]
      constructor
      · rintro (h | h)
        · exact .inr ⟨h, i :: k', mem_down.1 hk', by simp, rfl⟩
        · exact .inl h
      · rintro (h | h)
        · exact .inr h
        · exact .inl h.1

/-- An empty list after lists with keys: only the root is kept. -/
theorem batch_empty {P : Profile} {kec : Bytes → H256} {l : LNode} {prev : List Key} {q : Key}
    (hp : prev ≠ []) (hq : match l with
      | .branch _ _ => q = []
      | .ext n _ => ¬ Enters P n q
      | _ => False) :
    (batch P l prev []).subset kec = (flagged P l [q]).subset kec := by
  have e1 : (!(prev ++ []).isEmpty) = true := by simp [hp]
  have hun : ∀ (c : LNode) (ks : List Key), ((flagged P c ks).setTouched false).subset kec =
      (flagged P c []).subset kec := fun c ks =>
    subset_untouched (touched_setTouched _ _) (flagged_touched _ _ _)
      (by rw [node_setTouched, flagged_node, flagged_node])
  cases l with
  | empty => exact hq.elim
  | hash h => exact hq.elim
  | leaf n v => exact hq.elim
  | ext n c =>
    have hx : through P n [q] = [] := through_iff.2 (by simpa using hq)
    have hy : through P n [] = [] := rfl
    simp only [batch, flagged, e1, subset, away, touched, hx, hy]
    simp only [List.isEmpty_cons, List.isEmpty_nil, Bool.not_false, Bool.not_true, if_true,
      LNode.ext.injEq, true_and]
    exact hun _ _
  | branch cs v =>
    subst hq
    simp only [batch, flagged, e1, subset, away, touched]
    simp only [List.isEmpty_cons, Bool.not_false, if_true, LNode.branch.injEq, and_true]
    funext i
    exact hun _ _

theorem batch_forgets {P : Profile} {l : LNode} {prev : List Key}
    (h : prev = [] ∨ ((∀ n c, l ≠ .ext n c) ∧ ∀ cs v, l ≠ .branch cs v)) :
    batch P l prev [] = flagged P l [] := by
  rcases h with rfl | ⟨h1, h2⟩
  · exact batch_nil P l []
  · cases l with
    | ext n c => exact absurd rfl (h1 n c)
    | branch cs v => exact absurd rfl (h2 cs v)
    | _ => rfl

/-- Fewer keys can be marked, too. -/
theorem markAll_fewer {P : Profile} {l : LNode} {ks ks' : List Key} {t : LTracked}
    (hk : ∀ k ∈ ks', k ∈ ks) (h : (new l).markAll P ks = .ok (.ok t)) :
    ∃ t', (new l).markAll P ks' = .ok (.ok t') := by
  have hres : ∀ k ∈ ks, (¬ ∃ r, RunsInto (absL l) k r) ∧ ∀ e, l.get P k ≠ .error e := by
    rcases markAll_result P ks (new l) with ⟨_, _, h2⟩ | ⟨_, _, _, _, _, ⟨r, _, h2⟩ | ⟨e, _, h2⟩⟩
    · rw [node_new] at h2; exact h2
    · rw [h2] at h; cases h
    · rw [h2] at h; cases h
  rcases markAll_result P ks' (new l) with ⟨t', h1, _⟩ |
    ⟨a, k, b, rfl, _, ⟨r, hr, h2⟩ | ⟨e, he, h2⟩⟩
  · exact ⟨t', h1⟩
  · rw [node_new] at hr; exact absurd ⟨r, hr⟩ (hres k (hk k (by simp))).1
  · rw [node_new] at he; exact absurd he ((hres k (hk k (by simp))).2 e)

end LTracked
end EthTrie
