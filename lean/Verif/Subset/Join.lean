import Verif.Subset.Cut
import Verif.Subset.Mono
import Verif.Subset.Nest

/-!
# Subsets for the keys of two lists; the positions of the hashes in a subset
-/

namespace EthTrie

open Spec KMap LNode

namespace LTracked

theorem flagged_raw {P : Profile} {kec : Bytes → H256} {l : LNode} {b : Bytes} (ks : List Key)
    (h : l.enc kec = .raw b) : (flagged P l ks).subset kec = l := by
  rw [subset_small (flagged P l ks) b (by rw [flagged_node]; exact h), flagged_node]

theorem away_cons {P : Profile} {kec : Bytes → H256} {l : LNode} {ks : List Key} (h : ks ≠ []) :
    away kec (flagged P l ks) = none := by
  cases ks with
  | nil => exact absurd rfl h
  | cons k ks => simp [away, flagged_touched]

theorem subset_branch {P : Profile} {kec : Bytes → H256} {cs : Fin 16 → LNode} {v : Bytes}
    {ks : List Key} (h : ks ≠ []) : (flagged P (.branch cs v) ks).subset kec =
      .branch (fun i => (flagged P (cs i) (down i ks)).subset kec) v := by
  have := away_cons (P := P) (kec := kec) (l := .branch cs v) h
  simp only [flagged] at this ⊢
  simp only [subset, this]

theorem subset_ext {P : Profile} {kec : Bytes → H256} {n : Key} {c : LNode}
    {ks : List Key} (h : ks ≠ []) : (flagged P (.ext n c) ks).subset kec =
      .ext n ((flagged P c (through P n ks)).subset kec) := by
  have := away_cons (P := P) (kec := kec) (l := .ext n c) h
  simp only [flagged] at this ⊢
  simp only [subset, this]

theorem subset_leaf {P : Profile} {kec : Bytes → H256} {n : Key} {v : Bytes}
    {ks : List Key} (h : ks ≠ []) : (flagged P (.leaf n v) ks).subset kec = .leaf n v := by
  have := away_cons (P := P) (kec := kec) (l := .leaf n v) h
  simp only [flagged] at this ⊢
  simp only [subset, this]

/-- The subset for both lists is a partial view of every partial view that has both subsets as partial
views. -/
theorem subset_join {P : Profile} {kec : Bytes → H256} {p t : LNode} (h : View kec p t) :
    ∀ as bs : List Key, View kec ((flagged P t as).subset kec) p →
      View kec ((flagged P t bs).subset kec) p →
      View kec ((flagged P t (as ++ bs)).subset kec) p := by
  induction h with
  | empty => intro _ _ h _; exact h
  | leaf n v =>
    intro as bs h1 h2
    cases as with
    | nil => exact h2
    | cons a as =>
      rw [subset_leaf (by simp)] at h1 ⊢
      exact h1
  | away l x he =>
    intro as bs h1 h2
    cases as with
    | nil => exact h2
    | cons a as =>
      cases l with
      | empty => exact h1
      | hash y => exact h1
      | leaf n v => rw [subset_leaf (by simp)] at h1; cases h1
      | branch cs v => rw [subset_branch (by simp)] at h1; cases h1
      | ext n c => rw [subset_ext (by simp)] at h1; cases h1
  | branch ps cs v h ih =>
    intro as bs h1 h2
    cases as with
    | nil => exact h2
    | cons a as =>
      cases bs with
      | nil => rw [List.append_nil]; exact h1
      | cons b bs =>
        rw [subset_branch (by simp)] at h1 h2 ⊢
        cases h1 with
        | branch _ _ _ h1 =>
          cases h2 with
          | branch _ _ _ h2 =>
            refine .branch _ _ _ fun i => ?_
            rw [down_append]
            exact ih i _ _ (h1 i) (h2 i)
  | ext n p c h ih =>
    intro as bs h1 h2
    cases as with
    | nil => exact h2
    | cons a as =>
      cases bs with
      | nil => rw [List.append_nil]; exact h1
      | cons b bs =>
        rw [subset_ext (by simp)] at h1 h2 ⊢
        cases h1 with
        | ext _ _ _ h1 =>
          cases h2 with
          | ext _ _ _ h2 =>
            refine .ext _ _ _ ?_
            rw [through_append]
            exact ih _ _ h1 h2

/-- The subset for both lists has the values that are in one of the subsets. -/
theorem subset_union {P : Profile} {kec : Bytes → H256} : ∀ (l : LNode) (as bs : List Key) (k : Key)
    (v : Bytes), absL ((flagged P l (as ++ bs)).subset kec) k = some (.val v) ↔
      absL ((flagged P l as).subset kec) k = some (.val v) ∨
      absL ((flagged P l bs).subset kec) k = some (.val v) := by
  have hnil : ∀ (l : LNode) (bs : List Key) (k : Key) (v : Bytes),
      absL ((flagged P l []).subset kec) k = some (.val v) →
      absL ((flagged P l bs).subset kec) k = some (.val v) := by
    intro l bs k v h
    cases he : l.enc kec with
    | raw b => rw [flagged_raw _ he] at h ⊢; exact h
    | hashed x =>
      rw [subset_nil he, absL_hash] at h
      split at h <;> cases h
  intro l as bs k v
  induction l generalizing as bs k with
  | empty => simp [flagged, subset]
  | hash x => simp [flagged, subset]
  | leaf n w =>
    cases as with
    | nil => exact ⟨.inr, fun h => h.elim (hnil _ _ _ _) id⟩
    | cons a as =>
      cases bs with
      | nil => rw [List.append_nil]; exact ⟨.inl, fun h => h.elim id (hnil _ _ _ _)⟩
      | cons b bs => rw [subset_leaf (by simp), subset_leaf (by simp), subset_leaf (by simp), or_self]
  | branch cs w ih =>
    cases as with
    | nil => exact ⟨.inr, fun h => h.elim (hnil _ _ _ _) id⟩
    | cons a as =>
      cases bs with
      | nil => rw [List.append_nil]; exact ⟨.inl, fun h => h.elim id (hnil _ _ _ _)⟩
      | cons b bs =>
        rw [subset_branch (by simp), subset_branch (by simp), subset_branch (by simp)]
        cases k with
        | nil => simp only [absL_branch_nil, or_self]
        | cons d k => simp only [absL_branch_cons, down_append]; exact ih d _ _ k
  | ext n c ih =>
    cases as with
    | nil => exact ⟨.inr, fun h => h.elim (hnil _ _ _ _) id⟩
    | cons a as =>
      cases bs with
      | nil => rw [List.append_nil]; exact ⟨.inl, fun h => h.elim id (hnil _ _ _ _)⟩
      | cons b bs =>
        rw [subset_ext (by simp), subset_ext (by simp), subset_ext (by simp)]
        by_cases hp : n <+: k
        · obtain ⟨k, rfl⟩ := hp
          simp only [absL_ext_append, through_append]
          exact ih _ _ k
        · simp [absL_ext_none hp]

/-- If the keys of both lists can be marked, all of them can. -/
theorem markAll_both {P : Profile} {l : LNode} {as bs : List Key} {t u : LTracked}
    (ha : (new l).markAll P as = .ok (.ok t)) (hb : (new l).markAll P bs = .ok (.ok u)) :
    ∃ w, (new l).markAll P (as ++ bs) = .ok (.ok w) := by
  have hres : ∀ {ks : List Key} {t : LTracked}, (new l).markAll P ks = .ok (.ok t) →
      ∀ k ∈ ks, (¬ ∃ r, RunsInto (absL l) k r) ∧ ∀ e, l.get P k ≠ .error e := by
    intro ks t h
    rcases markAll_result P ks (new l) with ⟨_, _, h2⟩ | ⟨_, _, _, _, _, ⟨r, _, h2⟩ | ⟨e, _, h2⟩⟩
    · rw [node_new] at h2; exact h2
    · rw [h2] at h; cases h
    · rw [h2] at h; cases h
  have hall : ∀ k ∈ as ++ bs, (¬ ∃ r, RunsInto (absL l) k r) ∧ ∀ e, l.get P k ≠ .error e := by
    intro k hk
    rcases List.mem_append.1 hk with hk | hk
    · exact hres ha k hk
    · exact hres hb k hk
  rcases markAll_result P (as ++ bs) (new l) with ⟨t', h1, _⟩ |
    ⟨a, k, b, e0, _, ⟨r, hr, h2⟩ | ⟨e, he, h2⟩⟩
  · exact ⟨t', h1⟩
  · rw [node_new] at hr; exact absurd ⟨r, hr⟩ (hall k (by rw [e0]; simp)).1
  · rw [node_new] at he; exact absurd he ((hall k (by rw [e0]; simp)).2 e)

/-! ### Where the hashes of a subset are -/

/-- Below a large node that is not visited nothing is left. -/
theorem subset_covers {P : Profile} {kec : Bytes → H256} {l x : LNode} {q : Key} (h : At l q x)
    {y : H256} (hx : x.enc kec = .hashed y) : ∀ ks : List Key, (∀ k ∈ ks, ¬ OnPath P k q) →
      ∃ p z, p <+: q ∧ absL ((flagged P l ks).subset kec) p = some (.hash z) := by
  induction h with
  | here l =>
    intro ks hk
    cases ks with
    | cons k ks => exact absurd (.inl List.nil_prefix) (hk k (by simp))
    | nil => exact ⟨[], y, List.nil_prefix, by rw [subset_nil hx]; simp [absL_hash]⟩
  | branch cs v d q u h ih =>
    intro ks hk
    cases ks with
    | nil =>
      cases he : (LNode.branch cs v).enc kec with
      | hashed z => exact ⟨[], z, List.nil_prefix, by rw [subset_nil he]; simp [absL_hash]⟩
      | raw b =>
        have hsm := flagged_raw (P := P) [] he
        obtain ⟨p, z, h1, h2⟩ := ih hx [] (by simp)
        refine ⟨d :: p, z, by simpa using h1, ?_⟩
        rw [hsm, absL_branch_cons]
        simp only [LNode.enc] at he
        have := rlpList_item (x := ((cs d).enc kec).item)
          (xs := ((List.finRange 16).map fun i => ((cs i).enc kec).item) ++
          [if v = [] then [0x80] else rlpValue v])
          (List.mem_append_left _ (List.mem_map_of_mem (List.mem_finRange d)))
        obtain ⟨b', hb'⟩ := item_raw (this.trans (raw_small he))
        rwa [flagged_raw _ hb'] at h2
    | cons k ks =>
      obtain ⟨p, z, h1, h2⟩ := ih hx (down d (k :: ks)) fun k' hk' hp =>
        hk _ (mem_down.1 hk') (onPath_cons hp)
      refine ⟨d :: p, z, by simpa using h1, ?_⟩
      rw [subset_branch (by simp), absL_branch_cons]
      exact h2
  | ext n c q u h ih =>
    intro ks hk
    cases ks with
    | nil =>
      cases he : (LNode.ext n c).enc kec with
      | hashed z => exact ⟨[], z, List.nil_prefix, by rw [subset_nil he]; simp [absL_hash]⟩
      | raw b =>
        have hsm := flagged_raw (P := P) [] he
        obtain ⟨p, z, h1, h2⟩ := ih hx [] (by simp)
        refine ⟨n ++ p, z, (List.prefix_append_right_inj n).2 h1, ?_⟩
        rw [hsm, absL_ext_append]
        simp only [LNode.enc] at he
        have := rlpList_item (x := (c.enc kec).item)
          (xs := [rlpValue (HP n false), (c.enc kec).item]) (by simp)
        obtain ⟨b', hb'⟩ := item_raw (this.trans (raw_small he))
        rwa [flagged_raw _ hb'] at h2
    | cons k ks =>
      obtain ⟨p, z, h1, h2⟩ := ih hx (through P n (k :: ks)) fun k' hk' hp => by
        obtain ⟨k0, hk0, hr⟩ := mem_through.1 hk'
        exact hk _ hk0 (onPath_through hr hp)
      refine ⟨n ++ p, z, (List.prefix_append_right_inj n).2 h1, ?_⟩
      rw [subset_ext (by simp), absL_ext_append]
      exact h2

/-- The hashes of a subset are hashes of the trie or where no key leads. -/
theorem subset_hash {P : Profile} {kec : Bytes → H256} : ∀ (l : LNode) (ks : List Key) (q : Key)
    (x : H256), absL ((flagged P l ks).subset kec) q = some (.hash x) →
      absL l q = some (.hash x) ∨ ∀ k ∈ ks, ¬ q <+: k := by
  intro l
  induction l with
  | empty => intro ks q x h; exact .inl h
  | hash y => intro ks q x h; exact .inl h
  | leaf n v =>
    intro ks q x h
    cases ks with
    | nil => exact .inr (by simp)
    | cons k ks => rw [subset_leaf (by simp)] at h; exact .inl h
  | branch cs v ih =>
    intro ks q x h
    cases ks with
    | nil => exact .inr (by simp)
    | cons k ks =>
      rw [subset_branch (by simp)] at h
      cases q with
      | nil => simp only [absL_branch_nil] at h; split at h <;> cases h
      | cons d q =>
        rw [absL_branch_cons] at h ⊢
        refine (ih d _ q x h).imp id fun g k' hk' hp => ?_
        obtain ⟨r, rfl⟩ := hp
        exact g (q ++ r) (mem_down.2 hk') (List.prefix_append _ _)
  | ext n c ih =>
    intro ks q x h
    cases ks with
    | nil => exact .inr (by simp)
    | cons k ks =>
      rw [subset_ext (by simp)] at h
      obtain ⟨r, rfl, _⟩ := absL_ext_some (n := n) (q := q) (by rw [h]; simp)
      rw [absL_ext_append] at h ⊢
      refine (ih _ r x h).imp id fun g k' hk' hp => ?_
      obtain ⟨r', rfl⟩ := hp
      refine g (r ++ r') (mem_through.2 ⟨_, hk', ?_⟩) (List.prefix_append _ _)
      simp [extRest]

end LTracked
end EthTrie
