import Verif.Subset.Batch
import Verif.Trie.Unique
import Verif.Spec.Cut

/-!
# Partial views in terms of contents
-/

namespace EthTrie

open Spec KMap

namespace KMap

theorem joint_cons {m m' : KMap} {d : Fin 16} {q : Key} (hm : ∀ r, m (d :: r) = m' r) (hq : q ≠ []) :
    m.Joint (d :: q) ↔ m'.Joint q := by
  obtain ⟨q', e, rfl⟩ : ∃ q' e, q = q' ++ [e] := by
    rcases List.eq_nil_or_concat q with h | ⟨a, b, h⟩
    · exact absurd h hq
    · exact ⟨a, b, by rw [h, List.concat_eq_append]⟩
  have hf : ∀ q, m.Forks (d :: q) ↔ m'.Forks q := fun q => by
    simp only [Forks, List.cons_append, hm]
  have hb : m.Below (d :: (q' ++ [e])) ↔ m'.Below (q' ++ [e]) := by
    simp only [Below, List.cons_append, hm]
  have hn : m.NodeAt (d :: (q' ++ [e])) ↔ m'.NodeAt (q' ++ [e]) := by
    constructor
    · rintro (h | ⟨a, b, h, h'⟩)
      · simp at h
      · rw [← List.cons_append] at h
        obtain ⟨rfl, h2⟩ := List.append_inj' h rfl
        rw [hm, hf] at h'
        exact .inr ⟨q', e, rfl, h'⟩
    · rintro (h | ⟨a, b, h, h'⟩)
      · simp at h
      · obtain ⟨rfl, h2⟩ := List.append_inj' h rfl
        refine .inr ⟨d :: q', e, rfl, ?_⟩
        rwa [hm, hf]
  unfold Joint
  rw [hn, hf, hb, hm]

theorem joint_append {m : KMap} {n q : Key} (hq : q ≠ []) : m.Joint (n ++ q) ↔ (m.sub n).Joint q := by
  induction n generalizing m with
  | nil => rfl
  | cons d n ih =>
    rw [List.cons_append, joint_cons (m' := fun r => m (d :: r)) (fun _ => rfl) (by simp [hq]), ih]
    rfl

end KMap

namespace LNode

theorem at_ext_inv {n : Key} {c : LNode} {q : Key} {u : LNode} (h : At (.ext n c) q u) :
    (q = [] ∧ u = .ext n c) ∨ ∃ r, q = n ++ r ∧ At c r u := by
  cases h with
  | here => exact .inl ⟨rfl, rfl⟩
  | ext _ _ r _ h => exact .inr ⟨r, rfl, h⟩

theorem at_sub {l u : LNode} {q : Key} (h : At l q u) : absL u = (absL l).sub q := by
  induction h with
  | here l => rfl
  | branch cs v d q u h ih => rw [ih]; rfl
  | ext n c q u h ih => rw [ih]; funext r; simp [KMap.sub]

/-- A node begins where there is one. -/
theorem at_joint {l u : LNode} {q : Key} (h : At l q u) (hl : l.Canon) (hu : u ≠ .empty)
    (hh : ∀ x, u ≠ .hash x) : (absL l).Joint q := by
  have hb : ∀ {cs : Fin 16 → LNode} {v : Bytes}, (LNode.branch cs v).Canon →
      (absL (.branch cs v)).Forks [] ∨ (absL (.branch cs v) [] ≠ none ∧ (absL (.branch cs v)).Below []) := by
    intro cs v hc
    rcases hc.2 with ⟨i, j, hij, hi, hj⟩ | ⟨hv, i, hi⟩
    · obtain ⟨r, hr⟩ := (hc.1 i).exists_key hi
      obtain ⟨s, hs⟩ := (hc.1 j).exists_key hj
      exact .inl ⟨i, j, r, s, hij, hr, hs⟩
    · obtain ⟨r, hr⟩ := (hc.1 i).exists_key hi
      exact .inr ⟨by simp [hv], i, r, hr⟩
  induction h with
  | here l => exact .inl (.inl rfl)
  | branch cs v d q u h ih =>
    by_cases hq : q = []
    · subst hq
      refine .inl (.inr ⟨[], d, rfl, ?_⟩)
      rcases hb hl with h | h
      · exact .inr h
      · exact .inl h.1
    · rw [joint_cons (m' := absL (cs d)) (fun _ => rfl) hq]
      exact ih (hl.1 d) hu hh
  | ext n c q u h ih =>
    by_cases hq : q = []
    · have hcu : c = u := by
        cases h with
        | here => rfl
        | branch => cases hq
        | ext => exact hl.2.1.elim
      subst hcu hq
      · cases hcc : c with
        | hash x => exact absurd hcc (hh x)
        | branch cs v =>
          subst hcc
          rcases hb hl.2.2 with ⟨d, e, r, s, h1, h2, h3⟩ | ⟨h1, d, r, h2⟩
          · refine .inr (.inl ⟨d, e, r, s, h1, ?_, ?_⟩) <;> simpa using by assumption
          · refine .inr (.inr ⟨?_, d, r, ?_⟩)
            · rw [absL_ext_append]; exact h1
            · simpa using h2
        | empty => rw [hcc] at hl; exact hl.2.1.elim
        | ext => rw [hcc] at hl; exact hl.2.1.elim
        | leaf => rw [hcc] at hl; exact hl.2.1.elim
    · rw [joint_append hq, absL_ext_sub]
      exact ih hl.2.2 hu hh

/-- There is a node where one begins. -/
theorem exists_at : ∀ (l : LNode) (q : Key), l.Canon → (absL l).Joint q → (∃ r, absL l (q ++ r) ≠ none) →
    ∃ u, At l q u := by
  intro l
  induction l with
  | empty => intro q _ _ h; simp at h
  | hash x =>
    intro q _ _ ⟨r, hr⟩
    rw [absL_hash] at hr
    split at hr
    · rename_i h
      obtain ⟨rfl, -⟩ := List.append_eq_nil_iff.1 h
      exact ⟨_, .here _⟩
    · exact absurd rfl hr
  | leaf n v =>
    intro q _ hj ⟨r, hr⟩
    have one : ∀ k, absL (.leaf n v) k ≠ none → k = n := fun k hk => by
      rw [absL_leaf] at hk
      by_contra hne
      rw [if_neg hne] at hk
      exact hk rfl
    have e := one _ hr
    rcases hj with (rfl | ⟨q', d, rfl, h | ⟨a, b, s, t, hab, ha, hb⟩⟩) | ⟨a, b, s, t, hab, ha, hb⟩ | ⟨h, d, s, hs⟩
    · exact ⟨_, .here _⟩
    · have h1 := one _ h
      rw [← e] at h1
      have := congrArg List.length h1
      simp at this
    · have := (one _ ha).trans (one _ hb).symm
      simp only [List.append_cancel_left_eq, List.cons.injEq] at this
      exact absurd this.1 hab
    · have := (one _ ha).trans (one _ hb).symm
      simp only [List.append_cancel_left_eq, List.cons.injEq] at this
      exact absurd this.1 hab
    · have := (one _ h).trans (one _ hs).symm
      have := congrArg List.length this
      simp at this
  | branch cs v ih =>
    intro q hc hj ⟨r, hr⟩
    cases q with
    | nil => exact ⟨_, .here _⟩
    | cons d q =>
      by_cases hq : q = []
      · subst hq; exact ⟨_, .branch _ _ _ _ _ (.here _)⟩
      · rw [joint_cons (m' := absL (cs d)) (fun _ => rfl) hq] at hj
        obtain ⟨u, hu⟩ := ih d q (hc.1 d) hj ⟨r, hr⟩
        exact ⟨u, .branch _ _ _ _ _ hu⟩
  | ext n c ih =>
    intro q hc hj ⟨r, hr⟩
    by_cases hq0 : q = []
    · subst hq0; exact ⟨_, .here _⟩
    have hp : ∀ k, absL (.ext n c) k ≠ none → n <+: k := fun k hk => by
      obtain ⟨s, rfl, _⟩ := absL_ext_some hk
      exact List.prefix_append _ _
    have hfork : ∀ q, (absL (.ext n c)).Forks q → n <+: q := by
      rintro q ⟨a, b, s, t, hab, ha, hb⟩
      have h1 := hp _ ha
      have h2 := hp _ hb
      by_contra hnq
      have hle : q.length < n.length := by
        by_contra hlt
        exact hnq (List.prefix_of_prefix_length_le h1 (List.prefix_append _ _) (by omega))
      have e1 : q ++ [a] <+: n := List.prefix_of_prefix_length_le (l₃ := q ++ a :: s)
        ⟨s, by simp⟩ h1 (by simp; omega)
      have e2 : q ++ [b] <+: n := List.prefix_of_prefix_length_le (l₃ := q ++ b :: t)
        ⟨t, by simp⟩ h2 (by simp; omega)
      have := List.prefix_of_prefix_length_le e1 e2 (by simp)
      have := List.IsPrefix.eq_of_length this (by simp)
      simp only [List.append_cancel_left_eq, List.cons.injEq, and_true] at this
      exact hab this
    have hn : n <+: q := by
      rcases hj with (rfl | ⟨q', d, rfl, h | h⟩) | h | ⟨h, -⟩
      · exact absurd rfl hq0
      · exact (hp _ h).trans (List.prefix_append _ _)
      · exact (hfork _ h).trans (List.prefix_append _ _)
      · exact hfork _ h
      · exact hp _ h
    obtain ⟨s, rfl⟩ := hn
    by_cases hs : s = []
    · subst hs
      exact ⟨c, .ext _ _ _ _ (.here _)⟩
    · rw [joint_append hs, absL_ext_sub] at hj
      obtain ⟨u, hu⟩ := ih s hc.2.2 hj ⟨r, by simpa [List.append_assoc] using hr⟩
      exact ⟨u, .ext _ _ _ _ hu⟩

/-- A partial view has the contents of the trie with some sub-tries replaced. -/
theorem View.at {kec : Bytes → H256} {p t : LNode} (h : View kec p t) :
    ∀ k x, absL p k = some (.hash x) → ∃ u, At t k u ∧ u.enc kec = .hashed x := by
  induction h with
  | away l x he =>
    intro k y hk
    rw [absL_hash] at hk
    split at hk
    · rename_i h0
      subst h0
      cases hk
      exact ⟨_, .here _, he⟩
    · simp at hk
  | empty => intro k x hk; simp at hk
  | branch ps cs w h ih =>
    intro k x hk
    cases k with
    | nil =>
      simp only [absL_branch_nil] at hk
      split at hk <;> simp at hk
    | cons d k =>
      obtain ⟨u, h1, h2⟩ := ih d k x hk
      exact ⟨u, .branch _ _ _ _ _ h1, h2⟩
  | ext n p c h ih =>
    intro k x hk
    obtain ⟨r, rfl, _⟩ := absL_ext_some (n := n) (c := p) (q := k) (by simp [hk])
    rw [absL_ext_append] at hk
    obtain ⟨u, h1, h2⟩ := ih r x hk
    exact ⟨u, .ext _ _ _ _ h1, h2⟩
  | leaf n w =>
    intro k x hk
    rw [absL_leaf] at hk
    split at hk <;> simp at hk

theorem View.cutOf {kec : Bytes → H256} {p t : LNode} (h : View kec p t) (ht : t.Canon) :
    CutOf kec (absL t) (absL p) where
  cover := h.cover
  keep := by
    intro k v hk
    rcases h.keep ht k v hk with h1 | ⟨x, J, rfl, hJ, hlen, rfl⟩
    · exact .inl h1
    · obtain ⟨u, hu, he⟩ := h.at k _ hk
      by_cases hx : ∃ y, u = .hash y
      · obtain ⟨y, rfl⟩ := hx
        simp only [LNode.enc, EncodedNode.hashed.injEq] at he
        left
        have := congrFun (at_sub hu) []
        simp only [absL_hash, if_true, KMap.sub, List.append_nil] at this
        rw [← this, he]
      · refine .inr ⟨J, hJ, at_joint hu ht ?_ (fun y e => hx ⟨y, e⟩), hlen, ?_⟩
        · rintro rfl
          simp [LNode.enc] at he
        · have := (enc_spec kec u J (hu.canon ht) (by rw [at_sub hu]; exact hJ)).2.1
          rw [he] at this
          rw [← this]; rfl

/-- The trie with the nodes at the given positions replaced. -/
def cut (l : LNode) (f : Key → Option H256) : LNode :=
  match f [] with
  | some h => .hash h
  | none => match l with
    | .branch cs v => .branch (fun i => (cs i).cut fun q => f (i :: q)) v
    | .ext n c => .ext n (c.cut fun q => f (n ++ q))
    | l => l

theorem cut_view {kec : Bytes → H256} : ∀ (l : LNode) (f : Key → Option H256),
    (∀ q u h, At l q u → f q = some h → u.enc kec = .hashed h) → View kec (l.cut f) l := by
  intro l
  induction l with
  | branch cs v ih =>
    intro f hf
    unfold cut
    cases h0 : f [] with
    | some h => exact .away _ _ (hf _ _ _ (.here _) h0)
    | none => exact .branch _ _ _ fun i => ih i _ fun q u h hu => hf _ _ _ (.branch _ _ _ _ _ hu)
  | ext n c ih =>
    intro f hf
    unfold cut
    cases h0 : f [] with
    | some h => exact .away _ _ (hf _ _ _ (.here _) h0)
    | none => exact .ext _ _ _ (ih _ fun q u h hu => hf _ _ _ (.ext _ _ _ _ hu))
  | _ =>
    intro f hf
    unfold cut
    cases h0 : f [] with
    | some h => exact .away _ _ (hf _ _ _ (.here _) h0)
    | none => exact View.refl _ _

/-- The hashes among the entries. -/
def hashAt (m : KMap) (q : Key) : Option H256 :=
  match m q with
  | some (.hash h) => some h
  | _ => none

theorem hashAt_some {m : KMap} {q : Key} {h : H256} : hashAt m q = some h ↔ m q = some (.hash h) := by
  unfold hashAt
  split
  · rename_i h1; simp [h1]
  · rename_i h1
    constructor
    · intro h; cases h
    · intro h2; exact absurd h2 (h1 h)

theorem absL_cut : ∀ (l : LNode) (m : KMap),
    (∀ k v, m k = some v → absL l k = some v ∨ ∃ u h, At l k u ∧ v = .hash h) →
    (∀ k v, absL l k = some v → m k = some v ∨ ∃ q h, q <+: k ∧ m q = some (.hash h)) →
    (∀ q h r, m q = some (.hash h) → m (q ++ r) ≠ none → r = []) →
    absL (l.cut (hashAt m)) = m := by
  have root : ∀ (l : LNode) (m : KMap) (h : H256), m [] = some (.hash h) →
    (∀ q h r, m q = some (.hash h) → m (q ++ r) ≠ none → r = []) → absL (l.cut (hashAt m)) = m := by
    intro l m h h0 h3
    have : l.cut (hashAt m) = .hash h := by
      unfold cut; rw [hashAt_some.2 h0]
    rw [this]
    funext k
    rw [absL_hash]
    split
    · rename_i e; rw [e, h0]
    · rename_i e
      by_contra hne
      exact e (h3 [] h k h0 (fun e' => hne (by simpa using e'.symm)))
  have keepNil : ∀ (l : LNode) (m : KMap),
    (∀ k v, m k = some v → absL l k = some v ∨ ∃ u h, At l k u ∧ v = .hash h) →
    (∀ k v, absL l k = some v → m k = some v ∨ ∃ q h, q <+: k ∧ m q = some (.hash h)) →
    (∀ h, m [] ≠ some (.hash h)) → absL l [] = m [] := by
    intro l m h1 h2 h0
    cases hm : m [] with
    | some v =>
      rcases h1 _ _ hm with h | ⟨u, h, _, rfl⟩
      · exact h
      · exact absurd hm (h0 h)
    | none =>
      cases hl : absL l [] with
      | none => rfl
      | some v =>
        rcases h2 _ _ hl with h | ⟨q, h, hq, h'⟩
        · rw [hm] at h; cases h
        · rw [List.prefix_nil.1 hq] at h'
          exact absurd h' (h0 h)
  intro l
  induction l with
  | branch cs v ih =>
    intro m h1 h2 h3
    by_cases h0 : ∃ h, m [] = some (.hash h)
    · obtain ⟨h, h0⟩ := h0; exact root _ _ h h0 h3
    · have h0' : ∀ h, m [] ≠ some (.hash h) := fun h e => h0 ⟨h, e⟩
      have hc : (LNode.branch cs v).cut (hashAt m) =
          .branch (fun i => (cs i).cut (hashAt fun q => m (i :: q))) v := by
        conv => lhs; unfold cut
        have : hashAt m [] = none := by
          cases e : hashAt m [] with
          | none => rfl
          | some h => exact absurd (hashAt_some.1 e) (h0' h)
        rw [this]; rfl
      rw [hc]
      funext k
      cases k with
      | nil => rw [← keepNil _ m h1 h2 h0']; rfl
      | cons d k =>
        rw [absL_branch_cons]
        refine congrFun (ih d (fun q => m (d :: q)) ?_ ?_ ?_) k
        · intro k v hk
          rcases h1 _ _ hk with h | ⟨u, h, hu, hv⟩
          · exact .inl h
          · cases hu with
            | branch _ _ _ _ _ hu => exact .inr ⟨u, h, hu, hv⟩
        · intro k v hk
          rcases h2 (d :: k) v hk with h | ⟨q, h, hq, hm⟩
          · exact .inl h
          · cases q with
            | nil => exact absurd hm (h0' h)
            | cons e q =>
              obtain ⟨s, hs⟩ := hq
              simp only [List.cons_append, List.cons.injEq] at hs
              obtain ⟨rfl, hs⟩ := hs
              exact .inr ⟨q, h, ⟨s, hs⟩, hm⟩
        · exact fun q h r hq hr => h3 (d :: q) h r hq hr
  | ext n c ih =>
    intro m h1 h2 h3
    by_cases h0 : ∃ h, m [] = some (.hash h)
    · obtain ⟨h, h0⟩ := h0; exact root _ _ h h0 h3
    · have h0' : ∀ h, m [] ≠ some (.hash h) := fun h e => h0 ⟨h, e⟩
      have hc : (LNode.ext n c).cut (hashAt m) = .ext n (c.cut (hashAt fun q => m (n ++ q))) := by
        conv => lhs; unfold cut
        have : hashAt m [] = none := by
          cases e : hashAt m [] with
          | none => rfl
          | some h => exact absurd (hashAt_some.1 e) (h0' h)
        rw [this]; rfl
      rw [hc]
      have hpre : ∀ k v, m k = some v → n <+: k := by
        intro k v hk
        rcases h1 _ _ hk with h | ⟨u, h, hu, hv⟩
        · obtain ⟨s, rfl, _⟩ := absL_ext_some (n := n) (c := c) (q := k) (by simp [h])
          exact List.prefix_append _ _
        · rcases at_ext_inv hu with ⟨rfl, -⟩ | ⟨r, rfl, -⟩
          · exact absurd (hv ▸ hk) (h0' h)
          · exact List.prefix_append _ _
      funext k
      by_cases hk : n <+: k
      · obtain ⟨s, rfl⟩ := hk
        rw [absL_ext_append]
        refine congrFun (ih (fun q => m (n ++ q)) ?_ ?_ ?_) s
        · intro k v hk
          rcases h1 _ _ hk with h | ⟨u, h, hu, hv⟩
          · exact .inl (by simpa using h)
          · rcases at_ext_inv hu with ⟨e, -⟩ | ⟨r, e, hu⟩
            · obtain ⟨rfl, rfl⟩ := List.append_eq_nil_iff.1 e
              exact absurd (hv ▸ hk) (h0' h)
            · rw [List.append_cancel_left_eq] at e
              subst e
              exact .inr ⟨u, h, hu, hv⟩
        · intro k v hk
          rcases h2 (n ++ k) v (by simpa using hk) with h | ⟨q, h, hq, hm⟩
          · exact .inl h
          · obtain ⟨s, rfl⟩ := hpre _ _ hm
            exact .inr ⟨s, h, (List.prefix_append_right_inj n).1 hq, hm⟩
        · intro q h r hq hr
          exact h3 (n ++ q) h r hq (by rwa [List.append_assoc])
      · rw [absL_ext_none hk]
        cases hm : m k with
        | none => rfl
        | some v => exact absurd (hpre _ _ hm) hk
  | empty =>
    intro m h1 h2 h3
    by_cases h0 : ∃ h, m [] = some (.hash h)
    · obtain ⟨h, h0⟩ := h0; exact root _ _ h h0 h3
    · have hc : LNode.empty.cut (hashAt m) = .empty := by
        unfold cut
        cases e : hashAt m [] with
        | none => rfl
        | some h => exact absurd ⟨h, hashAt_some.1 e⟩ h0
      rw [hc]
      funext k
      cases hm : m k with
      | none => rfl
      | some v =>
        rcases h1 _ _ hm with h | ⟨u, h, hu, hv⟩
        · simp at h
        · cases hu
          exact absurd ⟨h, hv ▸ hm⟩ h0
  | hash x =>
    intro m h1 h2 h3
    by_cases h0 : ∃ h, m [] = some (.hash h)
    · obtain ⟨h, h0⟩ := h0; exact root _ _ h h0 h3
    · exfalso
      rcases h2 [] (.hash x) rfl with h | ⟨q, h, hq, hm⟩
      · exact h0 ⟨x, h⟩
      · rw [List.prefix_nil.1 hq] at hm
        exact h0 ⟨h, hm⟩
  | leaf n v =>
    intro m h1 h2 h3
    by_cases h0 : ∃ h, m [] = some (.hash h)
    · obtain ⟨h, h0⟩ := h0; exact root _ _ h h0 h3
    · have hc : (LNode.leaf n v).cut (hashAt m) = .leaf n v := by
        unfold cut
        cases e : hashAt m [] with
        | none => rfl
        | some h => exact absurd ⟨h, hashAt_some.1 e⟩ h0
      rw [hc]
      have hm : ∀ k w, m k = some w → k = n ∧ w = .val v := by
        intro k w hk
        rcases h1 _ _ hk with h | ⟨u, h, hu, hv⟩
        · rw [absL_leaf] at h
          split at h
          · rename_i e; cases h; exact ⟨e, rfl⟩
          · cases h
        · cases hu
          exact absurd ⟨h, hv ▸ hk⟩ h0
      funext k
      cases hk : m k with
      | none =>
        rw [absL_leaf]
        split
        · rename_i e
          subst e
          rcases h2 k (.val v) (by simp [absL_leaf]) with h | ⟨q, h, hq, hm'⟩
          · rw [hk] at h; cases h
          · cases (hm _ _ hm').2
        · rfl
      | some w =>
        obtain ⟨rfl, rfl⟩ := hm _ _ hk
        simp [absL_leaf]

/-- Below a hash there is nothing. -/
theorem hash_last : ∀ (l : LNode) (q : Key) (h : H256) (r : Key), absL l q = some (.hash h) →
    absL l (q ++ r) ≠ none → r = [] := by
  intro l
  induction l with
  | empty => intro q h r hq; simp at hq
  | hash x =>
    intro q h r hq hr
    rw [absL_hash] at hr
    split at hr
    · rename_i e; exact (List.append_eq_nil_iff.1 e).2
    · exact absurd rfl hr
  | branch cs v ih =>
    intro q h r hq hr
    cases q with
    | nil => simp only [absL_branch_nil] at hq; split at hq <;> simp at hq
    | cons d q => exact ih d q h r hq hr
  | ext n c ih =>
    intro q h r hq hr
    obtain ⟨s, rfl, _⟩ := absL_ext_some (n := n) (c := c) (q := q) (by simp [hq])
    rw [absL_ext_append] at hq
    rw [List.append_assoc, absL_ext_append] at hr
    exact ih s h r hq hr
  | leaf n v => intro q h r hq; rw [absL_leaf] at hq; split at hq <;> simp at hq

/-- Partial views are determined by the contents. -/
theorem view_iff_cutOf {kec : Bytes → H256} {p t : LNode} (hp : p.Canon) (ht : t.Canon) :
    View kec p t ↔ CutOf kec (absL t) (absL p) := by
  refine ⟨fun h => h.cutOf ht, fun h => ?_⟩
  have hat : ∀ q u u', At t q u → At t q u' → u ≠ .empty → u = u' := by
    intro q u u' h1 h2 _
    exact canon_unique _ _ (h1.canon ht) (h2.canon ht) ((at_sub h1).trans (at_sub h2).symm)
  have hne : ∀ {k : Key} {J : Entries}, Lists J ((absL t).sub k) → 32 ≤ (node kec J).length →
      ∃ r, absL t (k ++ r) ≠ none := by
    intro k J hJ hlen
    cases J with
    | nil => simp [node, rlpStr] at hlen
    | cons x J =>
      refine ⟨x.1, ?_⟩
      have := (hJ.2 x.1 x.2).1 (by simp)
      simp only [KMap.sub] at this
      rw [this]; simp
  have hv : View kec (t.cut (hashAt (absL p))) t := by
    refine cut_view t _ fun q u x hu hx => ?_
    rw [hashAt_some] at hx
    rcases h.keep _ _ hx with h1 | ⟨J, hJ, hj, hlen, e⟩
    · have : absL u = absL (.hash x) := by
        rw [at_sub hu]
        funext r
        rw [absL_hash]
        split
        · rename_i e; subst e; simpa [KMap.sub] using h1
        · rename_i e
          by_contra hne
          exact e (hash_last t q x r h1 hne)
      rw [canon_unique _ _ (hu.canon ht) (by trivial) this]
      rfl
    · cases e
      have hJ' : Lists J (absL u) := by rw [at_sub hu]; exact hJ
      obtain ⟨r, hr⟩ := hne hJ hlen
      have hue : u ≠ .empty := by
        rintro rfl
        have := congrFun (at_sub hu) r
        exact hr (by simpa [KMap.sub] using this.symm)
      by_cases hh : ∃ y, u = .hash y
      · obtain ⟨y, rfl⟩ := hh
        rw [← (enc_spec kec (.hash y) J trivial hJ').2.1]
        rfl
      · have h1 := (enc_spec kec u J (hu.canon ht) hJ').2.2 hue fun y e => hh ⟨y, e⟩
        have h2 := (enc_spec kec u J (hu.canon ht) hJ').2.1
        rw [← h2, h1, hashIfLarge]
        simp [hlen, EncodedNode.toH256]
  have he : absL (t.cut (hashAt (absL p))) = absL p := by
    refine absL_cut t _ ?_ h.cover fun q x r => hash_last p q x r
    intro k v hk
    rcases h.keep _ _ hk with h1 | ⟨J, hJ, hj, hlen, rfl⟩
    · exact .inl h1
    · obtain ⟨u, hu⟩ := exists_at t k ht hj (hne hJ hlen)
      exact .inr ⟨u, _, hu, rfl⟩
  rw [canon_unique _ _ hp (hv.canon ht) he.symm]
  exact hv

end LNode
end EthTrie
