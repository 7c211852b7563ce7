import Verif.Subset.Batch

/-!
# More marks, larger subsets
-/

namespace EthTrie

open Spec KMap LNode

namespace LTracked

/-- Same trie, and every node marked on the left is marked on the right. -/
def Le : LTracked → LTracked → Prop
  | .empty a, .empty b => a = true → b = true
  | .hash h a, .hash h' b => h = h' ∧ (a = true → b = true)
  | .branch cs v a, .branch ds w b => v = w ∧ (a = true → b = true) ∧ ∀ i, Le (cs i) (ds i)
  | .ext n c a, .ext m d b => n = m ∧ (a = true → b = true) ∧ Le c d
  | .leaf n v a, .leaf m w b => n = m ∧ v = w ∧ (a = true → b = true)
  | _, _ => False

theorem Le.node {t u : LTracked} (h : Le t u) : t.node = u.node := by
  induction t generalizing u with
  | empty a => cases u <;> simp_all [Le, LTracked.node]
  | hash x a => cases u <;> simp_all [Le, LTracked.node]
  | leaf n v a => cases u <;> simp_all [Le, LTracked.node]
  | branch cs v a ih =>
    cases u with
    | branch ds w b =>
      obtain ⟨rfl, _, h⟩ := h
      simp only [LTracked.node, LNode.branch.injEq, and_true]
      exact funext fun i => ih i (h i)
    | _ => exact h.elim
  | ext n c a ih =>
    cases u with
    | ext m d b =>
      obtain ⟨rfl, _, h⟩ := h
      simp only [LTracked.node, ih h]
    | _ => exact h.elim

theorem Le.touched {t u : LTracked} (h : Le t u) (ht : t.touched = true) : u.touched = true := by
  cases t <;> cases u <;> simp_all [Le, LTracked.touched]

theorem Le.away {kec : Bytes → H256} {t u : LTracked} (h : Le t u) (ha : away kec t = none) :
    away kec u = none := by
  simp only [LTracked.away, ← h.node] at ha ⊢
  split
  · rfl
  · rename_i hu
    rw [if_neg (fun e => hu (h.touched e))] at ha
    exact ha

/-- The smaller subset is a partial view of the larger one. -/
theorem Le.view {kec : Bytes → H256} {t u : LTracked} (h : Le t u) :
    View kec (t.subset kec) (u.subset kec) := by
  have hash : ∀ {t u : LTracked} {x : H256}, Le t u → LTracked.away kec t = some x →
      View kec (.hash x) (u.subset kec) := by
    intro t u x h ha
    refine .away _ _ ?_
    rw [(subset_view u).enc, ← h.node]
    simp only [LTracked.away] at ha
    split at ha
    · cases ha
    · split at ha
      · rename_i he; cases ha; exact he
      · cases ha
  induction t generalizing u with
  | empty a => cases u <;> first | exact .empty | exact h.elim
  | hash x a =>
    cases u with
    | hash y b => obtain ⟨rfl, _⟩ := h; exact View.refl _ _
    | _ => exact h.elim
  | leaf n v a =>
    cases u with
    | leaf m w b =>
      cases ha : LTracked.away kec (.leaf n v a) with
      | some x => simp only [subset, ha]; simpa only [subset] using hash h ha
      | none =>
        simp only [subset, ha, h.away ha]
        obtain ⟨rfl, rfl, _⟩ := h
        exact .leaf _ _
    | _ => exact h.elim
  | branch cs v a ih =>
    cases u with
    | branch ds w b =>
      cases ha : LTracked.away kec (.branch cs v a) with
      | some x => simp only [subset, ha]; simpa only [subset] using hash h ha
      | none =>
        simp only [subset, ha, h.away ha]
        obtain ⟨rfl, _, h⟩ := h
        exact .branch _ _ _ fun i => ih i (h i)
    | _ => exact h.elim
  | ext n c a ih =>
    cases u with
    | ext m d b =>
      cases ha : LTracked.away kec (.ext n c a) with
      | some x => simp only [subset, ha]; simpa only [subset] using hash h ha
      | none =>
        simp only [subset, ha, h.away ha]
        obtain ⟨rfl, _, h⟩ := h
        exact .ext _ _ _ (ih h)
    | _ => exact h.elim

theorem flagged_mono (P : Profile) : ∀ (l : LNode) (ks ks' : List Key), (∀ k ∈ ks, k ∈ ks') →
    Le (flagged P l ks) (flagged P l ks') := by
  have hem : ∀ (ks ks' : List Key), (∀ k ∈ ks, k ∈ ks') → (!ks.isEmpty) = true →
      (!ks'.isEmpty) = true := by
    intro ks ks' h h1
    cases ks with
    | nil => simp at h1
    | cons k ks =>
      cases ks' with
      | nil => simpa using h k (by simp)
      | cons _ _ => rfl
  intro l
  induction l with
  | empty => intro ks ks' h; exact hem _ _ h
  | hash x => intro ks ks' h; exact ⟨rfl, hem _ _ h⟩
  | leaf n v => intro ks ks' h; exact ⟨rfl, rfl, hem _ _ h⟩
  | branch cs v ih =>
    intro ks ks' h
    refine ⟨rfl, hem _ _ h, fun i => ih i _ _ fun k hk => ?_⟩
    exact mem_down.2 (h _ (mem_down.1 hk))
  | ext n c ih =>
    intro ks ks' h
    refine ⟨rfl, hem _ _ h, ih _ _ fun k hk => ?_⟩
    obtain ⟨q, hq, e⟩ := mem_through.1 hk
    exact mem_through.2 ⟨q, h q hq, e⟩

theorem Le.setTouched {t u : LTracked} {b : Bool} (h : Le t u) (hb : t.touched = true → b = true) :
    Le t (u.setTouched b) := by
  cases t <;> cases u <;> first | exact h.elim | skip
  · exact hb
  · exact ⟨h.1, hb⟩
  · exact ⟨h.1, hb, h.2.2⟩
  · exact ⟨h.1, hb, h.2.2⟩
  · exact ⟨h.1, h.2.1, hb⟩

theorem Le.refl (t : LTracked) : Le t t := by
  induction t with
  | empty b => exact id
  | hash h b => exact ⟨rfl, id⟩
  | branch cs v b ih => exact ⟨rfl, id, ih⟩
  | ext n c b ih => exact ⟨rfl, id, ih⟩
  | leaf n v b => exact ⟨rfl, rfl, id⟩

/-- Marks of earlier lists only add to the ones of the current list. -/
theorem batch_mono (P : Profile) (l : LNode) (prev cur : List Key) :
    Le (flagged P l cur) (batch P l prev cur) := by
  have hem : (!cur.isEmpty) = true → (!(prev ++ cur).isEmpty) = true := by
    cases cur <;> simp
  cases l with
  | branch cs v =>
    refine ⟨rfl, hem, fun i => Le.setTouched (flagged_mono P _ _ _ fun k hk => ?_) ?_⟩
    · rw [down_append]; exact List.mem_append_right _ hk
    · rw [flagged_touched]; exact id
  | ext n c =>
    refine ⟨rfl, hem, Le.setTouched (flagged_mono P _ _ _ fun k hk => ?_) ?_⟩
    · rw [through_append]; exact List.mem_append_right _ hk
    · rw [flagged_touched]; exact id
  | empty => exact Le.refl _
  | hash h => exact Le.refl _
  | leaf n v => exact Le.refl _

/-- What `create_trie_subsets` returns, list by list. -/
theorem batches_get (P : Profile) (kec : Bytes → H256) (l : LNode) : ∀ (kss : List (List Key))
    (prev : List Key) (j : Nat) (r : LNode), (batches P kec l prev kss)[j]? = some r →
    ∃ ks, kss[j]? = some ks ∧ r = (batch P l (prev ++ (kss.take j).flatten) ks).subset kec := by
  intro kss
  induction kss with
  | nil => intro prev j r h; simp [batches] at h
  | cons ks kss ih =>
    intro prev j r h
    cases j with
    | zero =>
      simp only [batches, List.getElem?_cons_zero, Option.some.injEq] at h
      exact ⟨ks, rfl, by simp [← h]⟩
    | succ j =>
      simp only [batches, List.getElem?_cons_succ] at h
      obtain ⟨ks', h1, h2⟩ := ih _ _ _ h
      exact ⟨ks', by simpa using h1, by rw [h2]; simp⟩

/-- What marking returns depends on the trie only, not on the marks. -/
theorem mark_outcome (P : Profile) (k : Key) {t u : LTracked} (h : t.node = u.node) :
    (t.mark P k).map (fun r => r.map LTracked.node) =
      (u.mark P k).map fun r => r.map LTracked.node := by
  cases ht : t.mark P k with
  | error e =>
    rw [mark_panic, h, ← mark_panic] at ht
    rw [ht]
  | ok r =>
    cases hu : u.mark P k with
    | error e =>
      rw [mark_panic, ← h, ← mark_panic] at hu
      rw [ht] at hu; cases hu
    | ok r' =>
      cases r with
      | error x =>
        have h1 := (mark_result P t k).1 x ht
        rw [h] at h1
        cases r' with
        | error y => rw [RunsInto_unique h1 ((mark_result P u k).1 y hu)]
        | ok u' => exact absurd h1 ((mark_result P u k).2 u' hu x)
      | ok t' =>
        cases r' with
        | error y =>
          have h1 := (mark_result P u k).1 y hu
          rw [← h] at h1
          exact absurd h1 ((mark_result P t k).2 t' ht y)
        | ok u' => simp only [Except.map, mark_node P t k t' ht, mark_node P u k u' hu, h]

theorem markAll_outcome (P : Profile) : ∀ (ks : List Key) {t u : LTracked}, t.node = u.node →
    (t.markAll P ks).map (fun r => r.map LTracked.node) =
      (u.markAll P ks).map fun r => r.map LTracked.node := by
  intro ks
  induction ks with
  | nil => intro t u h; simp only [markAll, Except.map, h]
  | cons k ks ih =>
    intro t u h
    have h1 := mark_outcome P k h
    simp only [markAll]
    rcases ht : t.mark P k with e | (r | t') <;> rcases hu : u.mark P k with e' | (r' | u') <;>
      rw [ht, hu] at h1 <;> simp only [Except.map, Except.ok.injEq, Except.error.injEq, reduceCtorEq] at h1
    · rw [h1]
    · rw [h1]
    · exact ih h1

theorem markAll_append (P : Profile) : ∀ (as bs : List Key) (t : LTracked),
    t.markAll P (as ++ bs) = t.markAll P as >>= fun r => match r with
      | .error e => .ok (.error e)
      | .ok t' => t'.markAll P bs := by
  intro as
  induction as with
  | nil => intro bs t; rfl
  | cons k as ih =>
    intro bs t
    simp only [List.cons_append, markAll]
    rcases t.mark P k with e | (r | t')
    · rfl
    · rfl
    · simp only [R_bind_ok, ih]

theorem node_reset (t : LTracked) : t.reset.node = t.node := by
  cases t <;> simp [reset, node, node_setTouched]

/-- Several subsets succeed, fail or panic as one subset for all keys does. -/
theorem subsetsL_outcome (P : Profile) (kec : Bytes → H256) : ∀ (kss : List (List Key))
    {t u : LTracked}, t.node = u.node →
    (PSys.subsetsL P kec t kss).map (fun r => r.map fun _ => ()) =
      (u.markAll P kss.flatten).map fun r => r.map fun _ => () := by
  intro kss
  induction kss with
  | nil => intro t u h; rfl
  | cons ks kss ih =>
    intro t u h
    have h1 := markAll_outcome P ks h
    simp only [PSys.subsetsL, List.flatten_cons, markAll_append]
    rcases ht : t.markAll P ks with e | (r | t') <;> rcases hu : u.markAll P ks with e' | (r' | u') <;>
      rw [ht, hu] at h1 <;> simp only [Except.map, Except.ok.injEq, Except.error.injEq, reduceCtorEq] at h1
    · rw [h1]; rfl
    · rw [h1]; rfl
    · have h2 := ih (t := t'.reset) (u := u') (by rw [node_reset, h1])
      simp only [R_bind_ok, ← h2]
      rcases PSys.subsetsL P kec t'.reset kss with e | (r | rs) <;> rfl

end LTracked
end EthTrie
