import Verif.Subset.Batch
import Verif.Subset.Carried

/-!
# Subsets of partial tries
-/

namespace EthTrie

open Spec KMap

namespace LNode

/-- The hashes among the entries are the hash nodes. -/
theorem at_hash : ∀ {l : LNode} {q : Key} {x : H256}, At l q (.hash x) ↔ absL l q = some (.hash x) := by
  intro l
  induction l with
  | empty =>
    intro q x
    constructor
    · intro h; cases h
    · intro h; simp at h
  | hash y =>
    intro q x
    rw [absL_hash]
    constructor
    · intro h; cases h; rfl
    · intro h
      split at h
      · next e => cases h; rw [e]; exact .here _
      · cases h
  | leaf n v =>
    intro q x
    rw [absL_leaf]
    constructor
    · intro h; cases h
    · intro h; split at h <;> cases h
  | branch cs v ih =>
    intro q x
    cases q with
    | nil =>
      constructor
      · intro h
        generalize hu : LNode.hash x = u at h
        generalize hq : ([] : Key) = q at h
        cases h with
        | here => cases hu
        | branch => cases hq
      · intro h; simp only [absL_branch_nil] at h; split at h <;> cases h
    | cons d q =>
      rw [absL_branch_cons, ← ih]
      constructor
      · intro h; cases h with
        | branch _ _ _ _ _ h => exact h
      · intro h; exact .branch _ _ _ _ _ h
  | ext n c ih =>
    intro q x
    constructor
    · intro h
      generalize hu : LNode.hash x = u at h
      cases h with
      | here => cases hu
      | ext _ _ r _ h =>
        rw [absL_ext_append, ← ih, hu]; exact h
    · intro h
      by_cases hn : n <+: q
      · obtain ⟨r, rfl⟩ := hn
        rw [absL_ext_append, ← ih] at h
        exact .ext _ _ _ _ h
      · rw [absL_ext_none hn] at h; cases h

end LNode

namespace LTracked

open LNode

theorem away_flagged_some {P : Profile} {kec : Bytes → H256} {l : LNode} {ks : List Key} {x : H256}
    (h : away kec (flagged P l ks) = some x) : ks = [] ∧ l.enc kec = .hashed x := by
  simp only [away, flagged_touched, flagged_node] at h
  cases ks with
  | cons k ks => simp at h
  | nil =>
    refine ⟨rfl, ?_⟩
    simp only [List.isEmpty_nil, Bool.not_true] at h
    cases he : l.enc kec with
    | raw b => simp [he] at h
    | hashed y => simp [he] at h; rw [h]

theorem subset_nil {P : Profile} {kec : Bytes → H256} {l : LNode} {x : H256}
    (he : l.enc kec = .hashed x) : (flagged P l []).subset kec = .hash x := by
  have ha : away kec (flagged P l []) = some x := by
    simp [away, flagged_touched, flagged_node, he]
  cases l with
  | empty => simp [LNode.enc] at he
  | hash y => simp only [LNode.enc, EncodedNode.hashed.injEq] at he; simp [flagged, subset, he]
  | branch cs v => simp only [flagged] at ha ⊢; simp only [subset, ha]
  | ext n c => simp only [flagged] at ha ⊢; simp only [subset, ha]
  | leaf n v => simp only [flagged] at ha ⊢; simp only [subset, ha]

/-- Whether the root of a subset is replaced depends on the encoding and on whether there are keys. -/
theorem away_view {P : Profile} {kec : Bytes → H256} {p t : LNode} (h : View kec p t) (ks : List Key) :
    away kec (flagged P p ks) = away kec (flagged P t ks) := by
  simp only [away, flagged_touched, flagged_node, h.enc]

theorem onPath_through {P : Profile} {n k k' q : Key} (hr : extRest P n k = .ok (some k'))
    (hp : OnPath P k' q) : OnPath P k (n ++ q) := by
  unfold extRest at hr
  split at hr
  · split at hr
    · rename_i h1
      obtain ⟨s, rfl⟩ := h1
      simp at hr; subst hr
      exact onPath_append hp
    · simp at hr
  · split at hr
    · cases hr
    · split at hr
      · rename_i h1 h2 h3
        simp at hr; subst hr
        rw [h3]
        exact onPath_nil (by simpa using h2) hp (by omega)
      · simp at hr

/-- A subset of a partial trie whose replaced sub-tries are not visited is the subset of the full one. -/
theorem subset_of_view {P : Profile} {kec : Bytes → H256} {p t : LNode} (h : View kec p t)
    (hc : t.Canon) : ∀ ks : List Key, (∀ q x, At p q (.hash x) → At t q (.hash x) ∨ ∀ k ∈ ks, ¬ OnPath P k q) →
    (flagged P p ks).subset kec = (flagged P t ks).subset kec := by
  induction h with
  | away l x he =>
    intro ks hk
    rcases hk [] x (.here _) with g | g
    · generalize hu : LNode.hash x = u at g
      generalize hq : ([] : Key) = q at g
      cases g with
      | here => rw [← hu]
      | branch => cases hq
      | ext => simp only [List.nil_eq, List.append_eq_nil_iff] at hq; exact absurd hq.1 hc.1
    · cases ks with
      | nil => rw [subset_nil he]; rfl
      | cons k ks => exact absurd (.inl List.nil_prefix) (g k (by simp))
  | empty => intro _ _; rfl
  | leaf n v => intro _ _; rfl
  | branch ps cs v h ih =>
    intro ks hk
    have ha := away_view (P := P) (.branch ps cs v h) ks
    have ih' : ∀ i, (flagged P (ps i) (down i ks)).subset kec = (flagged P (cs i) (down i ks)).subset kec := by
      intro i
      refine ih i (hc.1 i) _ fun q x hq => ?_
      rcases hk (i :: q) x (.branch _ _ _ _ _ hq) with g | g
      · left; rw [at_hash, absL_branch_cons, ← at_hash] at g; exact g
      · right
        exact fun k h1 h2 => g _ (mem_down.1 h1) (onPath_cons h2)
    simp only [flagged] at ha ⊢
    simp only [subset, ha, ih']
  | ext n p c h ih =>
    intro ks hk
    have ha := away_view (P := P) (.ext n p c h) ks
    have ih' : (flagged P p (through P n ks)).subset kec = (flagged P c (through P n ks)).subset kec := by
      refine ih hc.2.2 _ fun q x hq => ?_
      rcases hk (n ++ q) x (.ext _ _ _ _ hq) with g | g
      · left
        rw [at_hash, absL_ext_append, ← at_hash] at g; exact g
      · right
        intro k h1 h2
        obtain ⟨k', h3, h4⟩ := mem_through.1 h1
        exact g _ h3 (onPath_through h4 h2)
    simp only [flagged] at ha ⊢
    simp only [subset, ha, ih']

/-- A subset for fewer keys can be made from a subset. -/
theorem subset_subset (P : Profile) (kec : Bytes → H256) : ∀ (l : LNode) (ks ks' : List Key),
    (∀ k ∈ ks', k ∈ ks) →
    (flagged P ((flagged P l ks).subset kec) ks').subset kec = (flagged P l ks').subset kec := by
  intro l
  have hcut : ∀ (l : LNode) (ks ks' : List Key) (x : H256), (∀ k ∈ ks', k ∈ ks) →
      away kec (flagged P l ks) = some x →
      (flagged P (.hash x) ks').subset kec = (flagged P l ks').subset kec := by
    intro l ks ks' x hk ha
    obtain ⟨rfl, he⟩ := away_flagged_some ha
    obtain rfl : ks' = [] := by
      cases ks' with
      | nil => rfl
      | cons k _ => exact absurd (hk k (by simp)) (by simp)
    rw [subset_nil he]; rfl
  induction l with
  | empty => intro _ _ _; rfl
  | hash x => intro _ _ _; rfl
  | leaf n v =>
    intro ks ks' hk
    have hc := hcut (.leaf n v) ks ks'
    simp only [flagged] at hc ⊢
    conv_lhs => rw [subset]
    split
    · exact hc _ hk ‹_›
    · rfl
  | branch cs v ih =>
    intro ks ks' hk
    have hc := hcut (.branch cs v) ks ks'
    have hv := away_view (P := P) (subset_view (kec := kec) (flagged P (.branch cs v) ks)) ks'
    rw [flagged_node] at hv
    have ih' : ∀ i, (flagged P ((flagged P (cs i) (down i ks)).subset kec) (down i ks')).subset kec =
        (flagged P (cs i) (down i ks')).subset kec := fun i =>
      ih i _ _ fun k h => mem_down.2 (hk _ (mem_down.1 h))
    simp only [flagged] at hc hv ⊢
    rw [subset] at hv ⊢
    split at hv
    · exact hc _ hk ‹_›
    · rename_i hn
      simp only [hn, flagged] at hv ⊢
      simp only [subset, hv, ih']
  | ext n c ih =>
    intro ks ks' hk
    have hc := hcut (.ext n c) ks ks'
    have hv := away_view (P := P) (subset_view (kec := kec) (flagged P (.ext n c) ks)) ks'
    rw [flagged_node] at hv
    have ih' : (flagged P ((flagged P c (through P n ks)).subset kec) (through P n ks')).subset kec =
        (flagged P c (through P n ks')).subset kec := by
      refine ih _ _ fun k h => ?_
      obtain ⟨k', h1, h2⟩ := mem_through.1 h
      exact mem_through.2 ⟨k', hk _ h1, h2⟩
    simp only [flagged] at hc hv ⊢
    rw [subset] at hv ⊢
    split at hv
    · exact hc _ hk ‹_›
    · rename_i hn
      simp only [hn, flagged] at hv ⊢
      simp only [subset, hv, ih']

/-- Marking fewer keys on a subset succeeds. -/
theorem markAll_nest {P : Profile} {kec : Bytes → H256} {l : LNode} {ks ks' : List Key} {t : LTracked}
    (hk : ∀ k ∈ ks', k ∈ ks) (h : (new l).markAll P ks = .ok (.ok t)) :
    ∃ t', (new (t.subset kec)).markAll P ks' = .ok (.ok t') ∧
      t'.subset kec = (flagged P l ks').subset kec := by
  obtain ⟨t₁, h1, -⟩ := markAll_again (kec := kec) h
  obtain ⟨t', h2⟩ := markAll_fewer hk h1
  refine ⟨t', h2, ?_⟩
  rw [markAll_new h2, markAll_new h, subset_subset P kec l ks ks' hk]

/-- Lookups in a partial trie panic only if they panic in the full one. -/
theorem view_get_error {P : Profile} {kec : Bytes → H256} {p t : LNode} (h : View kec p t) :
    ∀ {k : Key} {e : Panic}, p.get P k = .error e → t.get P k = .error e := by
  induction h with
  | away l x he => intro k e h; cases h
  | empty => exact id
  | leaf n v => exact id
  | branch ps cs v h ih =>
    intro k e h
    cases k with
    | nil => exact h
    | cons d k => exact ih d h
  | ext n p c h ih =>
    intro k e h
    simp only [LNode.get] at h ⊢
    split at h
    · rename_i h1
      rw [if_pos h1]
      split at h
      · rename_i h2; rw [if_pos h2]; exact ih h
      · cases h
    · rename_i h1
      rw [if_neg h1]
      split at h
      · rename_i h2; rw [if_pos h2]; exact h
      · rename_i h2
        rw [if_neg h2]
        split at h
        · rename_i h3; rw [if_pos h3]; exact ih h
        · cases h

/-- Marking keys that visit no replaced sub-trie. -/
theorem markAll_view {P : Profile} {kec : Bytes → H256} {p l : LNode} {ks : List Key} {t : LTracked}
    (hv : View kec p l) (hc : l.Canon) (h : (new l).markAll P ks = .ok (.ok t))
    (hk : ∀ q x, At p q (.hash x) → At l q (.hash x) ∨ ∀ k ∈ ks, ¬ OnPath P k q) :
    ∃ t', (new p).markAll P ks = .ok (.ok t') ∧ t'.subset kec = t.subset kec := by
  have hres : ∀ k ∈ ks, (¬ ∃ r, RunsInto (absL l) k r) ∧ ∀ e, l.get P k ≠ .error e := by
    rcases markAll_result P ks (new l) with ⟨_, _, h2⟩ | ⟨_, _, _, _, _, ⟨r, _, h2⟩ | ⟨e, _, h2⟩⟩
    · rw [node_new] at h2; exact h2
    · rw [h2] at h; cases h
    · rw [h2] at h; cases h
  rcases markAll_result P ks (new p) with ⟨t', h1, _⟩ | ⟨a, k, b, rfl, _, ⟨r, hr, h2⟩ | ⟨e, he, h2⟩⟩
  · refine ⟨t', h1, ?_⟩
    rw [markAll_new h1, markAll_new h, subset_of_view hv hc ks hk]
  · rw [node_new] at hr
    obtain ⟨hr, q, x, rfl, hq⟩ := hr
    rcases hk q x (at_hash.2 hq) with g | g
    · exact absurd ⟨r, hr, q, x, rfl, at_hash.1 g⟩ (hres (q ++ r) (by simp)).1
    · exact absurd (.inl (List.prefix_append _ _)) (g (q ++ r) (by simp))
  · rw [node_new] at he
    exact absurd (view_get_error hv he) ((hres k (by simp)).2 e)

end LTracked
end EthTrie
