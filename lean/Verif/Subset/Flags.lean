import Verif.Subset.View
import Verif.Subset.Marks

/-!
# Which nodes are marked, and what subsets look like
-/

namespace EthTrie

open Spec KMap LNode

/-- The keys that begin with `d`, without this nibble. -/
def down (d : Fin 16) (ks : List Key) : List Key :=
  ks.filterMap fun k => match k with
    | [] => none
    | e :: k' => if e = d then some k' else none

/-- What an extension passes on to its child. -/
def through (P : Profile) (n : Key) (ks : List Key) : List Key :=
  ks.filterMap fun k => match LTracked.extRest P n k with
    | .ok (some k') => some k'
    | _ => none

theorem mem_down {d : Fin 16} {ks : List Key} {k : Key} : k ∈ down d ks ↔ d :: k ∈ ks := by
  simp only [down, List.mem_filterMap]
  constructor
  · rintro ⟨q, hq, h⟩
    cases q with
    | nil => simp at h
    | cons e q =>
      simp only at h
      split at h
      · cases h; subst_vars; exact hq
      · cases h
  · intro h; exact ⟨_, h, by simp⟩

theorem mem_through {P : Profile} {n : Key} {ks : List Key} {k : Key} :
    k ∈ through P n ks ↔ ∃ q ∈ ks, LTracked.extRest P n q = .ok (some k) := by
  simp only [through, List.mem_filterMap]
  constructor
  · rintro ⟨q, hq, h⟩
    split at h
    · rename_i h1; cases h; exact ⟨q, hq, h1⟩
    · cases h
  · rintro ⟨q, hq, h⟩; exact ⟨q, hq, by simp [h]⟩

theorem down_append (d : Fin 16) (a b : List Key) : down d (a ++ b) = down d a ++ down d b := by
  simp [down, List.filterMap_append]

theorem through_append (P : Profile) (n : Key) (a b : List Key) :
    through P n (a ++ b) = through P n a ++ through P n b := by
  simp [through, List.filterMap_append]

namespace LTracked

/-- The tracked trie in which exactly the nodes visited for the keys are marked. -/
def flagged (P : Profile) : LNode → List Key → LTracked
  | .empty, ks => .empty (!ks.isEmpty)
  | .hash h, ks => .hash h (!ks.isEmpty)
  | .branch cs v, ks => .branch (fun i => flagged P (cs i) (down i ks)) v (!ks.isEmpty)
  | .ext n c, ks => .ext n (flagged P c (through P n ks)) (!ks.isEmpty)
  | .leaf n v, ks => .leaf n v (!ks.isEmpty)

theorem flagged_node (P : Profile) (l : LNode) (ks : List Key) : (flagged P l ks).node = l := by
  induction l generalizing ks with
  | empty => rfl
  | hash h => rfl
  | leaf n v => rfl
  | ext n c ih => simp only [flagged, node, ih]
  | branch cs v ih => simp only [flagged, node, ih]

theorem flagged_touched (P : Profile) (l : LNode) (ks : List Key) :
    (flagged P l ks).touched = !ks.isEmpty := by cases l <;> rfl

theorem flagged_nil (P : Profile) (l : LNode) : flagged P l [] = new l := by
  induction l with
  | empty => rfl
  | hash h => rfl
  | leaf n v => rfl
  | ext n c ih => simp only [flagged, new, through, List.filterMap_nil, ih]; rfl
  | branch cs v ih => simp only [flagged, new, down, List.filterMap_nil, ih]; rfl

theorem down_single_ne {d i : Fin 16} (k : Key) (h : i ≠ d) : down i [d :: k] = [] := by
  simp [down, Ne.symm h]

theorem mark_flagged (P : Profile) : ∀ (l : LNode) (ks : List Key) (k : Key) (t : LTracked),
    (flagged P l ks).mark P k = .ok (.ok t) → t = flagged P l (ks ++ [k]) := by
  intro l
  induction l with
  | empty => intro ks k t h; simp [flagged, mark] at h; simp [flagged, ← h]
  | hash x =>
    intro ks k t h
    cases k with
    | nil => simp [flagged, mark] at h; simp [flagged, ← h]
    | cons d k => simp [flagged, mark] at h
  | leaf n v => intro ks k t h; simp [flagged, mark] at h; simp [flagged, ← h]
  | branch cs v ih =>
    intro ks k t h
    cases k with
    | nil =>
      simp only [flagged, mark, Except.ok.injEq] at h
      simp [flagged, ← h, down_append, down]
    | cons d k =>
      simp only [flagged, mark] at h
      cases hm : (flagged P (cs d) (down d ks)).mark P k with
      | error e => simp [hm] at h
      | ok r =>
        cases r with
        | error e => simp [hm] at h
        | ok c =>
          simp [hm] at h
          subst h
          have := ih d _ _ _ hm
          have he : (!(ks ++ [d :: k]).isEmpty) = true := by simp
          simp only [flagged, he, LTracked.branch.injEq, and_true]
          funext i
          by_cases hi : i = d
          · subst hi
            simp only [upd_same, this, down_append]
            congr 1
            simp [down]
          · rw [upd_other _ _ hi, down_append, down_single_ne k hi, List.append_nil]
  | ext n c ih =>
    intro ks k t h
    simp only [flagged, mark] at h
    cases hr : extRest P n k with
    | error e => simp [hr] at h
    | ok o =>
      cases o with
      | none =>
        simp [hr] at h
        simp [flagged, ← h, through_append, through, hr]
      | some k' =>
        simp only [hr, R_bind_ok] at h
        cases hm : (flagged P c (through P n ks)).mark P k' with
        | error e => simp [hm] at h
        | ok r =>
          cases r with
          | error e => simp [hm] at h
          | ok c' =>
            simp [hm] at h
            subst h
            simp [flagged, ih _ _ _ hm, through_append, through, hr]

theorem markAll_flagged (P : Profile) (l : LNode) : ∀ (ks ks₀ : List Key) (t : LTracked),
    (flagged P l ks₀).markAll P ks = .ok (.ok t) → t = flagged P l (ks₀ ++ ks) := by
  intro ks
  induction ks with
  | nil => intro ks₀ t h; simp [markAll] at h; simp [← h]
  | cons k ks ih =>
    intro ks₀ t h
    simp only [markAll] at h
    cases hm : (flagged P l ks₀).mark P k with
    | error e => simp [hm] at h
    | ok r =>
      cases r with
      | error e => simp [hm] at h
      | ok c =>
        simp only [hm, R_bind_ok] at h
        rw [mark_flagged P l _ _ _ hm] at h
        simpa using ih _ _ h

/-- After successful marking exactly the visited nodes are marked. -/
theorem markAll_new {P : Profile} {l : LNode} {ks : List Key} {t : LTracked}
    (h : (new l).markAll P ks = .ok (.ok t)) : t = flagged P l ks := by
  rw [← flagged_nil P] at h
  simpa using markAll_flagged P l ks [] t h

/-- The marks depend on the set of keys only. -/
theorem flagged_congr (P : Profile) : ∀ (l : LNode) (ks ks' : List Key), (∀ k, k ∈ ks ↔ k ∈ ks') →
    flagged P l ks = flagged P l ks' := by
  have hem : ∀ (ks ks' : List Key), (∀ k, k ∈ ks ↔ k ∈ ks') → ks.isEmpty = ks'.isEmpty := by
    intro ks ks' h
    cases ks with
    | nil =>
      cases ks' with
      | nil => rfl
      | cons k ks' => simpa using (h k).2 (by simp)
    | cons k ks =>
      cases ks' with
      | nil => simpa using (h k).1 (by simp)
      | cons k ks' => rfl
  intro l
  induction l with
  | empty => intro ks ks' h; simp only [flagged, hem _ _ h]
  | hash x => intro ks ks' h; simp only [flagged, hem _ _ h]
  | leaf n v => intro ks ks' h; simp only [flagged, hem _ _ h]
  | branch cs v ih =>
    intro ks ks' h
    simp only [flagged, hem _ _ h, LTracked.branch.injEq, and_true]
    exact funext fun i => ih i _ _ fun k => by rw [mem_down, mem_down, h]
  | ext n c ih =>
    intro ks ks' h
    simp only [flagged, hem _ _ h]
    rw [ih (through P n ks) (through P n ks') fun k => by simp only [mem_through, h]]

/-! ### Results of marking -/

/-- Marking panics exactly if looking up the key does. -/
theorem mark_panic (P : Profile) : ∀ (t : LTracked) (k : Key) (e : Panic),
    t.mark P k = .error e ↔ t.node.get P k = .error e := by
  intro t
  induction t with
  | empty b => intro k e; simp [mark, node, LNode.get]
  | hash h b => intro k e; cases k <;> simp [mark, node, LNode.get]
  | leaf n v b => intro k e; simp [mark, node, LNode.get]
  | branch cs v b ih =>
    intro k e
    cases k with
    | nil => simp [mark, node, LNode.get]
    | cons d k =>
      simp only [mark, node, LNode.get, ← ih d k e]
      cases (cs d).mark P k with
      | error e' => simp
      | ok r => cases r <;> simp
  | ext n c b ih =>
    intro k e
    have hb : ∀ k', (c.mark P k' >>= fun r => match r with
        | .error e => (pure (Except.error e) : R (Except Key LTracked))
        | .ok c' => pure (.ok (.ext n c' true))) = .error e ↔ c.node.get P k' = .error e := by
      intro k'
      rw [← ih k' e]
      cases c.mark P k' with
      | error e' => simp
      | ok r => cases r <;> simp
    simp only [mark, node, LNode.get, extRest]
    split
    · split
      · exact hb _
      · simp
    · split
      · simp
      · split
        · exact hb []
        · simp

theorem mark_result (P : Profile) : ∀ (t : LTracked) (k : Key),
    (∀ r, t.mark P k = .ok (.error r) → RunsInto (absL t.node) k r) ∧
    (∀ t', t.mark P k = .ok (.ok t') → ∀ r, ¬ RunsInto (absL t.node) k r) := by
  intro t
  induction t with
  | empty b =>
    intro k
    refine ⟨by simp [mark], fun _ _ => ?_⟩
    rintro r ⟨_, q, x, _, hq⟩
    simp [node] at hq
  | hash h b =>
    intro k
    cases k with
    | nil =>
      refine ⟨by simp [mark], fun _ _ => ?_⟩
      rintro r ⟨hr, q, x, he, _⟩
      simp at he; exact absurd he.2 hr
    | cons d k =>
      refine ⟨fun r hr => ?_, by simp [mark]⟩
      simp only [mark, Except.ok.injEq, Except.error.injEq] at hr
      subst hr
      exact ⟨by simp, [], h, rfl, by simp [node, absL_hash]⟩
  | leaf n v b =>
    intro k
    refine ⟨by simp [mark], fun _ _ => ?_⟩
    rintro r ⟨_, q, x, _, hq⟩
    simp only [node, absL_leaf] at hq
    split at hq <;> simp at hq
  | branch cs v b ih =>
    intro k
    cases k with
    | nil =>
      refine ⟨by simp [mark], fun _ _ => ?_⟩
      rintro r ⟨hr, q, x, he, _⟩
      simp at he; exact absurd he.2 hr
    | cons d k =>
      obtain ⟨h1, h2⟩ := ih d k
      simp only [mark]
      cases hm : (cs d).mark P k with
      | error e => simp
      | ok res =>
        cases res with
        | error e =>
          simp only [R_bind_ok, R_pure, Except.ok.injEq, Except.error.injEq, reduceCtorEq,
            false_implies, implies_true, and_true]
          rintro r rfl
          obtain ⟨hr, q, x, rfl, hq⟩ := h1 _ hm
          exact ⟨hr, d :: q, x, rfl, hq⟩
        | ok c =>
          simp only [R_bind_ok, R_pure, Except.ok.injEq, reduceCtorEq, false_implies, implies_true,
            true_and]
          rintro _ _ r ⟨hr, q, x, he, hq⟩
          cases q with
          | nil =>
            simp only [node, absL_branch_nil] at hq
            split at hq <;> simp at hq
          | cons e q =>
            simp only [List.cons_append, List.cons.injEq] at he
            obtain ⟨rfl, rfl⟩ := he
            exact h2 c hm r ⟨hr, q, x, rfl, hq⟩
  | ext n c b ih =>
    intro k
    have hpre : ∀ r, RunsInto (absL (node (.ext n c b))) k r →
        ∃ k', k = n ++ k' ∧ RunsInto (absL c.node) k' r := by
      rintro r ⟨hr, q, x, rfl, hq⟩
      simp only [node] at hq
      obtain ⟨s, rfl, _⟩ := absL_ext_some (n := n) (c := c.node) (q := q) (by simp [hq])
      rw [absL_ext_append] at hq
      exact ⟨s ++ r, by simp, hr, s, x, rfl, hq⟩
    simp only [mark]
    by_cases hp : n <+: k
    · obtain ⟨k', rfl⟩ := hp
      have hr : extRest P n (n ++ k') = .ok (some k') := by simp [extRest]
      obtain ⟨h1, h2⟩ := ih k'
      simp only [hr, R_bind_ok]
      cases hm : c.mark P k' with
      | error e => simp
      | ok res =>
        cases res with
        | error e =>
          simp only [R_bind_ok, R_pure, Except.ok.injEq, Except.error.injEq, reduceCtorEq,
            false_implies, implies_true, and_true]
          rintro r rfl
          obtain ⟨hr', q, x, rfl, hq⟩ := h1 _ hm
          exact ⟨hr', n ++ q, x, by simp, by simpa [node] using hq⟩
        | ok c' =>
          simp only [R_bind_ok, R_pure, Except.ok.injEq, reduceCtorEq, false_implies, implies_true,
            true_and]
          intro _ _ r hr
          obtain ⟨k'', e, hr⟩ := hpre r hr
          rw [← List.append_cancel_left e] at hr
          exact h2 c' hm r hr
    · refine ⟨fun r h => ?_, fun t' _ r hr => ?_⟩
      · exfalso
        unfold extRest at h
        simp only [hp, if_false] at h
        split at h
        · simp at h
        · split at h
          · simp at h
          · split at h
            · simp only [R_bind_ok] at h
              obtain ⟨h1, _⟩ := ih []
              cases hm : c.mark P [] with
              | error e => simp [hm] at h
              | ok res =>
                cases res with
                | error e =>
                  obtain ⟨hr, q, x, he, _⟩ := h1 _ hm
                  simp at he; exact hr he.2
                | ok c' => simp [hm] at h
            · simp at h
      · obtain ⟨k', rfl, _⟩ := hpre r hr
        exact hp (List.prefix_append _ _)

theorem RunsInto_unique {l : LNode} {k r r' : Key} (h : RunsInto (absL l) k r)
    (h' : RunsInto (absL l) k r') : r = r' := by
  have key : ∀ (q s : Key) (x y : H256), absL l q = some (.hash x) →
      absL l (q ++ s) = some (.hash y) → s = [] := by
    clear h h'
    intro q s x y h1 h2
    induction l generalizing q with
    | empty => simp at h1
    | hash z =>
      rw [absL_hash] at h1 h2
      split at h1
      · subst_vars
        split at h2
        · assumption
        · cases h2
      · cases h1
    | leaf n v => rw [absL_leaf] at h1; split at h1 <;> cases h1
    | branch cs v ih =>
      cases q with
      | nil => simp only [absL_branch_nil] at h1; split at h1 <;> cases h1
      | cons d q => exact ih d q h1 h2
    | ext n c ih =>
      obtain ⟨t, rfl, _⟩ := absL_ext_some (n := n) (c := c) (q := q) (by simp [h1])
      rw [absL_ext_append] at h1
      rw [List.append_assoc, absL_ext_append] at h2
      exact ih t h1 h2
  obtain ⟨_, q, x, rfl, hq⟩ := h
  obtain ⟨_, q', x', e, hq'⟩ := h'
  rcases List.append_eq_append_iff.1 e with ⟨s, rfl, rfl⟩ | ⟨s, rfl, rfl⟩
  · rw [key _ _ _ _ hq hq']; rfl
  · rw [key _ _ _ _ hq' hq]; rfl

/-- Exactly what marking several keys returns. -/
theorem markAll_result (P : Profile) : ∀ (ks : List Key) (t : LTracked),
    (∃ t', t.markAll P ks = .ok (.ok t') ∧ (∀ k ∈ ks, (¬ ∃ r, RunsInto (absL t.node) k r) ∧
      ∀ e, t.node.get P k ≠ .error e)) ∨
    (∃ ks₁ k ks₂, ks = ks₁ ++ k :: ks₂ ∧ (∀ k' ∈ ks₁, (¬ ∃ r, RunsInto (absL t.node) k' r) ∧
      ∀ e, t.node.get P k' ≠ .error e) ∧
      ((∃ r, RunsInto (absL t.node) k r ∧ t.markAll P ks = .ok (.error r)) ∨
       (∃ e, t.node.get P k = .error e ∧ t.markAll P ks = .error e))) := by
  intro ks
  induction ks with
  | nil => intro t; exact .inl ⟨t, rfl, by simp⟩
  | cons k ks ih =>
    intro t
    cases hm : t.mark P k with
    | error e =>
      refine .inr ⟨[], k, ks, rfl, by simp, .inr ⟨e, (mark_panic P t k e).1 hm, ?_⟩⟩
      simp only [markAll, hm, R_bind_err]
    | ok res =>
      have hnp : ∀ e, t.node.get P k ≠ .error e := fun e he => by
        rw [(mark_panic P t k e).2 he] at hm; cases hm
      cases res with
      | error r =>
        refine .inr ⟨[], k, ks, rfl, by simp, .inl ⟨r, (mark_result P t k).1 r hm, ?_⟩⟩
        simp only [markAll, hm, R_bind_ok, R_pure]
      | ok t' =>
        have hk : ¬ ∃ r, RunsInto (absL t.node) k r := fun ⟨r, hr⟩ => (mark_result P t k).2 t' hm r hr
        have e1 : t.markAll P (k :: ks) = t'.markAll P ks := by
          simp only [markAll, hm, R_bind_ok]
        have hn := mark_node P t k t' hm
        rw [e1]
        rcases ih t' with ⟨t'', h1, h2⟩ | ⟨a, x, b, rfl, hab, h2⟩
        · rw [hn] at h2
          refine .inl ⟨t'', h1, fun q hq => ?_⟩
          rcases List.mem_cons.1 hq with rfl | hq
          · exact ⟨hk, hnp⟩
          · exact h2 q hq
        · rw [hn] at hab h2
          refine .inr ⟨k :: a, x, b, rfl, fun q hq => ?_, h2⟩
          rcases List.mem_cons.1 hq with rfl | hq
          · exact ⟨hk, hnp⟩
          · exact hab q hq

end LTracked
end EthTrie
