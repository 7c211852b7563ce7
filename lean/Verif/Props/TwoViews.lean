import Verif.Props.Commit
import Verif.Trie.Strand
import Verif.Subset.Nest

/-!
# C83: partial tries with the same root hash

Two partial tries with the same root hash (two proofs for the same state, say) do not contradict each other,
and follow each other under changes.  No full trie is assumed.
-/

namespace EthTrie

open Nibbles Spec

namespace LNode

variable {kec : Bytes → H256}

theorem Agree.symm {l m : LNode} (h : Agree kec l m) : Agree kec m l := by
  induction h with
  | left m h he => exact .right _ _ he
  | right l h he => exact .left _ _ he
  | empty => exact .empty
  | branch ps cs v h ih => exact .branch _ _ _ ih
  | ext n p c h ih => exact .ext _ _ _ ih
  | leaf n v => exact .leaf _ _

/-- There is one node at a position. -/
theorem At.unique {l u : LNode} {q : Key} (h : At l q u) : ∀ {u' : LNode}, At l q u' → l.ExtOK → u = u' := by
  induction h with
  | here l => intro u' h' ho; exact (h'.nil ho rfl).symm
  | branch cs v d q u h ih => intro u' h' ho; cases h' with | branch _ _ _ _ _ h' => exact ih h' (ho d)
  | ext n c q u h ih => intro u' h' ho; exact ih (h'.under ho.1) ho.2.2

theorem At.append {l u w : LNode} {q r : Key} (h : At l q u) (h' : At u r w) : At l (q ++ r) w := by
  induction h with
  | here l => exact h'
  | branch cs v d q u h ih => exact .branch _ _ _ _ _ (ih h')
  | ext n c q u h ih => rw [List.append_assoc]; exact .ext _ _ _ _ (ih h')

/-- Tries that agree are partial views of one trie, which has nothing that is not in one of them. -/
theorem Agree.join {l m : LNode} (h : Agree kec l m) (hl : l.ExtOK) (hm : m.ExtOK) :
    ∃ j, View kec l j ∧ View kec m j ∧
      (∀ q x u, At l q (.hash x) → At j q u → ¬ u.IsHash → At m q u) ∧
      (∀ q x u, At m q (.hash x) → At j q u → ¬ u.IsHash → At l q u) := by
  induction h with
  | left m h he =>
    refine ⟨m, .away _ _ he, .refl _ _, fun q x u _ hu _ => hu, fun q x u hx hu hh => ?_⟩
    rw [← hx.unique hu hm] at hh
    exact absurd trivial hh
  | right l h he =>
    refine ⟨l, .refl _ _, .away _ _ he, fun q x u hx hu hh => ?_, fun q x u _ hu _ => hu⟩
    rw [← hx.unique hu hl] at hh
    exact absurd trivial hh
  | empty => exact ⟨.empty, .empty, .empty, fun q x u hx => (by cases hx), fun q x u hx => (by cases hx)⟩
  | leaf n v => exact ⟨.leaf n v, .leaf _ _, .leaf _ _, fun q x u hx => (by cases hx), fun q x u hx => (by cases hx)⟩
  | branch ps cs v h ih =>
    choose js h1 h2 h3 h4 using fun i => ih i (hl i) (hm i)
    refine ⟨.branch js v, .branch _ _ _ h1, .branch _ _ _ h2, fun q x u hx hu hh => ?_, fun q x u hx hu hh => ?_⟩
    · cases hx with
      | branch _ _ d q _ hx => cases hu with | branch _ _ _ _ _ hu => exact .branch _ _ _ _ _ (h3 d q x u hx hu hh)
    · cases hx with
      | branch _ _ d q _ hx => cases hu with | branch _ _ _ _ _ hu => exact .branch _ _ _ _ _ (h4 d q x u hx hu hh)
  | ext n p c h ih =>
    obtain ⟨j, h1, h2, h3, h4⟩ := ih hl.2.2 hm.2.2
    refine ⟨.ext n j, .ext _ _ _ h1, .ext _ _ _ h2, fun q x u hx hu hh => ?_, fun q x u hx hu hh => ?_⟩
    · cases hx with
      | ext _ _ q _ hx => exact .ext _ _ _ _ (h3 q x u hx (hu.under hl.1) hh)
    · cases hx with
      | ext _ _ q _ hx => exact .ext _ _ _ _ (h4 q x u hx (hu.under hl.1) hh)

end LNode

open LNode

section

variable {K : Kind} {M : Mode} [M.Safe] {P : Profile} {kec : Bytes → H256} {s : Sys K.Ann K.State}
  {i : Nat} {t : Trie K.Ann} {K' : Kind} {M' : Mode} [M'.Safe] {P' : Profile} {s' : Sys K'.Ann K'.State}
  {i' : Nat} {t' : Trie K'.Ann}

theorem common_view (h : Live K M P kec s) (hi : s.hs[i]? = some t) (h' : Live K' M' P' kec s')
    (hi' : s'.hs[i']? = some t') (hv : t.SmallValues) (hv' : t'.SmallValues) (hn : ¬ t.IsHash)
    (hn' : ¬ t'.IsHash) (he : (t.rootHash P kec s.state).map (·.1) = (t'.rootHash P' kec s'.state).map (·.1)) :
    (∃ j, View kec t.plain j ∧ View kec t'.plain j ∧
      (∀ q x u, At t.plain q (.hash x) → At j q u → ¬ u.IsHash → At t'.plain q u) ∧
      (∀ q x u, At t'.plain q (.hash x) → At j q u → ¬ u.IsHash → At t.plain q u)) ∨ t.Collide kec t' := by
  rw [h.hash hi, h'.hash hi'] at he
  have hp := h.plain (List.mem_of_getElem? hi)
  have hp' := h'.plain (List.mem_of_getElem? hi')
  rcases rootHash_agree (small_plain hp hv) (small_plain hp' hv') (fun hx => hn ((isHash_plain t).1 hx))
    (fun hx => hn' ((isHash_plain t').1 hx)) (by simpa using he) with g | g
  · exact .inl (g.join (h.shape (List.mem_of_getElem? hi)).2 (h'.shape (List.mem_of_getElem? hi')).2)
  · exact .inr (collide_plain g)

/-- C83: partial tries with the same root hash do not have different values for a key; or there is a
collision. -/
theorem C83_values (h : Live K M P kec s) (hi : s.hs[i]? = some t) (h' : Live K' M' P kec s')
    (hi' : s'.hs[i']? = some t') (hv : t.SmallValues) (hv' : t'.SmallValues) (hn : ¬ t.IsHash)
    (hn' : ¬ t'.IsHash) (he : (t.rootHash P kec s.state).map (·.1) = (t'.rootHash P kec s'.state).map (·.1))
    {k : Key} (hk : k.length ≤ 127) {v v' : Bytes} (hg : t.get P (ofList k) = .ok (some v))
    (hg' : t'.get P (ofList k) = .ok (some v')) : v = v' ∨ t.Collide kec t' := by
  refine (common_view h hi h' hi' hv hv' hn hn' he).imp ?_ id
  rintro ⟨j, h1, h2, _⟩
  rw [h.get hi hk] at hg
  rw [h'.get hi' hk] at hg'
  have := (h1.get_some hg).symm.trans (h2.get_some hg')
  simpa using this

/-- C83: a value of one is the value in the other, or the key leads to a hash node there.  In builds without
overflow checks this is claimed for keys that are not shorter than a path of the other. -/
theorem C83_value (h : Live K M P kec s) (hi : s.hs[i]? = some t) (h' : Live K' M' P kec s')
    (hi' : s'.hs[i']? = some t') (hv : t.SmallValues) (hv' : t'.SmallValues) (hn : ¬ t.IsHash)
    (he : (t.rootHash P kec s.state).map (·.1) = (t'.rootHash P kec s'.state).map (·.1))
    {k : Key} (hk : k.length ≤ 127) {v : Bytes} (hg : t.get P (ofList k) = .ok (some v))
    (hq : ∀ q u, t'.NodeAt q u → u.IsHash → ¬ q <+: k)
    (hP : P.overflowChecks = true ∨ ∀ q u, t'.NodeAt q u → q.length ≤ k.length) :
    t'.get P (ofList k) = .ok (some v) ∨ t.Collide kec t' := by
  have hn' : ¬ t'.IsHash := fun hh => hq _ _ (.here t') hh List.nil_prefix
  refine (common_view h hi h' hi' hv hv' hn hn' he).imp ?_ id
  rintro ⟨j, h1, h2, _⟩
  rw [h.get hi hk] at hg
  rw [h'.get hi' hk, h2.get_eq ?_ ?_]
  · exact h1.get_some hg
  · intro q u hu hh
    obtain ⟨b, h5, rfl⟩ := nodeAt_of_at hu
    exact hq q b h5 ((isHash_plain b).1 hh)
  · refine hP.imp id fun hP q u hu => ?_
    obtain ⟨b, h5, _⟩ := nodeAt_of_at hu
    exact hP q b h5

/-- The tries after the same insertions into two partial views of a trie. -/
theorem two_inserts (xs : List (Key × ValOrHash)) :
    ∀ {s : Sys K.Ann K.State} {s' : Sys K'.Ann K'.State} {t : Trie K.Ann} {t' : Trie K'.Ann} {j : LNode},
    Live K M P kec s → s.hs[i]? = some t → Live K' M' P' kec s' → s'.hs[i']? = some t' →
    View kec t.plain j → View kec t'.plain j → (∀ x ∈ xs, x.1.length ≤ 127) →
    ∀ {r : Sys K.Ann K.State} {r' : Sys K'.Ann K'.State} {os os' : List Obs},
    s.run P kec (inserts i xs) = .ok (r, os) → s'.run P' kec (inserts i' xs) = .ok (r', os') →
    ∃ u u', r.hs[i]? = some u ∧ r'.hs[i']? = some u' ∧
      (u.rootHash P kec r.state).map (·.1) = (u'.rootHash P' kec r'.state).map (·.1) := by
  induction xs with
  | nil =>
    intro s s' t t' j h hi h' hi' hv hv' _ r r' os os' he he'
    simp only [inserts, List.map_nil, Sys.run, Except.ok.injEq, Prod.mk.injEq] at he he'
    obtain ⟨rfl, _⟩ := he
    obtain ⟨rfl, _⟩ := he'
    exact ⟨t, t', hi, hi', by rw [h.hash hi, h'.hash hi', hv.rootHash, hv'.rootHash]⟩
  | cons x xs ih =>
    intro s s' t t' j h hi h' hi' hv hv' hx r r' os os' he he'
    simp only [inserts, List.map_cons, Sys.run, R_bind_eq_ok] at he he'
    obtain ⟨⟨s₁, o⟩, h1, ⟨s₂, os₂⟩, h2, h3⟩ := he
    cases h3
    obtain ⟨⟨s₁', o'⟩, h1', ⟨s₂', os₂'⟩, h2', h3'⟩ := he'
    cases h3'
    simp only [Sys.exec, exec_on hi, R_bind_eq_ok] at h1
    simp only [Sys.exec, exec_on hi', R_bind_eq_ok] at h1'
    obtain ⟨⟨p, st⟩, h1, h4⟩ := h1
    cases h4
    obtain ⟨⟨p', st'⟩, h1', h4'⟩ := h1'
    cases h4'
    have hxk := hx x (by simp)
    have e1 : s.exec P kec (.insert i x.1 x.2) = .ok (⟨st, s.hs.set i p⟩, .unit) := by
      simp only [Sys.exec, exec_on hi, h1, R_bind_ok, R_pure]
    have e2 : s'.exec P' kec (.insert i' x.1 x.2) = .ok (⟨st', s'.hs.set i' p'⟩, .unit) := by
      simp only [Sys.exec, exec_on hi', h1', R_bind_ok, R_pure]
    have g1 := h.insert hi hxk x.2
    rw [h1] at g1
    have g1' := h'.insert hi' hxk x.2
    rw [h1'] at g1'
    obtain ⟨l, h5, h6⟩ := hv.insert g1.symm
    obtain ⟨l', h5', h6'⟩ := hv'.insert g1'.symm
    rw [h5] at h5'
    cases h5'
    exact ih (.step h (c := .insert i x.1 x.2) hxk (by cases K <;> cases M <;> trivial) e1)
      (Sys.set_get hi p)
      (.step h' (c := .insert i' x.1 x.2) hxk (by cases K' <;> cases M' <;> trivial) e2)
      (Sys.set_get hi' p') h6 h6' (fun y hy => hx y (by simp [hy])) h2 h2'

/-- C83: the same insertions, where both return, lead to the same root hash again; or there is a collision of
the tries before. -/
theorem C83_inserts (h : Live K M P kec s) (hi : s.hs[i]? = some t) (h' : Live K' M' P' kec s')
    (hi' : s'.hs[i']? = some t') (hv : t.SmallValues) (hv' : t'.SmallValues) (hn : ¬ t.IsHash)
    (hn' : ¬ t'.IsHash) (he : (t.rootHash P kec s.state).map (·.1) = (t'.rootHash P' kec s'.state).map (·.1))
    {xs : List (Key × ValOrHash)} (hx : ∀ x ∈ xs, x.1.length ≤ 127)
    {r : Sys K.Ann K.State} {r' : Sys K'.Ann K'.State} {os os' : List Obs}
    (hr : s.run P kec (inserts i xs) = .ok (r, os)) (hr' : s'.run P' kec (inserts i' xs) = .ok (r', os')) :
    (∃ u u', r.hs[i]? = some u ∧ r'.hs[i']? = some u' ∧
      (u.rootHash P kec r.state).map (·.1) = (u'.rootHash P' kec r'.state).map (·.1)) ∨
      t.Collide kec t' := by
  refine (common_view h hi h' hi' hv hv' hn hn' he).imp ?_ id
  rintro ⟨j, h1, h2, _⟩
  exact two_inserts xs h hi h' hi' h1 h2 hx hr hr'

/-- C83: a deletion that returns in both returns the same value and leads to the same root hash, unless in one
of them a branch is collapsed onto a hash node that stands for a leaf or an extension of the other; or there
is a collision of the tries before.  (The exception is needed: `C34_false`, with a full trie for one of them.) -/
theorem C83_delete (h : Live K M P kec s) (hi : s.hs[i]? = some t) (h' : Live K' M' P' kec s')
    (hi' : s'.hs[i']? = some t') (hv : t.SmallValues) (hv' : t'.SmallValues) (hn : ¬ t.IsHash)
    (hn' : ¬ t'.IsHash) (he : (t.rootHash P kec s.state).map (·.1) = (t'.rootHash P' kec s'.state).map (·.1))
    {k : Key} (hk : k.length ≤ 127) {u : Trie K.Ann} {u' : Trie K'.Ann} {o o' : Option Bytes}
    {st : K.State} {st' : K'.State} (hl : ¬ t.Strands t' k) (hl' : ¬ t'.Strands t k)
    (hd : t.delete P (ofList k) s.state = .ok ((u, o), st))
    (hd' : t'.delete P' (ofList k) s'.state = .ok ((u', o'), st')) :
    (o = o' ∧ (u.rootHash P kec st).map (·.1) = (u'.rootHash P' kec st').map (·.1)) ∨
      t.Collide kec t' := by
  refine (common_view h hi h' hi' hv hv' hn hn' he).imp ?_ id
  rintro ⟨j, h1, h2, h3, h4⟩
  have last : ∀ {l m : LNode}, (∀ q x u, At l q (.hash x) → At j q u → ¬ u.IsHash → At m q u) →
      LastHash l j k → LastHash l m k := by
    rintro l m hlm ⟨q, d, i, r, cs, v, x, y, w, g1, g2, g3, g4, g5, g6, g7, g8⟩
    refine ⟨q, d, i, r, cs, v, x, y, w, g1, g2, g3, g4, g5, g6, hlm _ x _ ?_ g7 ?_, g8⟩
    · have : At (.branch cs v) [i] (.hash x) := .branch _ _ _ _ _ (g6 ▸ .here _)
      exact g2.append this
    · intro hh
      cases y with
      | hash z => exact g8
      | _ => exact hh
  have d1 := h.delete hi hk
  rw [hd] at d1
  have d2 := h'.delete hi' hk
  rw [hd'] at d2
  obtain ⟨l, e1, e2⟩ := h1.deleteA (fun e => hl (strands_plain.1 (last h3 e))) d1.symm
  obtain ⟨l', e1', e2'⟩ := h2.deleteA (fun e => hl' (strands_plain.1 (last h4 e))) d2.symm
  rw [e1] at e1'
  cases e1'
  refine ⟨rfl, ?_⟩
  have l1 : Live K M P kec ⟨st, s.hs.set i u⟩ := by
    refine .step (c := .delete i k) (o := .val o) h hk (by cases K <;> cases M <;> trivial) ?_
    simp only [Sys.exec, exec_on hi, hd, R_bind_ok, R_pure]
  have l2 : Live K' M' P' kec ⟨st', s'.hs.set i' u'⟩ := by
    refine .step (c := .delete i' k) (o := .val o) h' hk (by cases K' <;> cases M' <;> trivial) ?_
    simp only [Sys.exec, exec_on hi', hd', R_bind_ok, R_pure]
  have r1 := l1.hash (Sys.set_get hi u)
  have r2 := l2.hash (Sys.set_get hi' u')
  simp only at r1 r2
  rw [r1, r2, e2.rootHash, e2'.rootHash]

end

/-! ## A case -/

/-- Two subsets of a trie, each with a leaf that the other only has the hash of, and their common part. -/
def viewsProg : List Cmd :=
  [.fromIter [([1, 1], .val (List.replicate 40 1)), ([1, 2], .val (List.replicate 40 2)),
      ([2, 1], .val (List.replicate 40 3)), ([3], .val [7])],
    .subset 0 [[1, 1], [2, 1]], .subset 0 [[2, 1], [1, 2]]]

theorem viewsLive (K : Kind) (P : Profile) : Live K .noEmptySubset P kec0 (K.after P viewsProg) := by
  refine Kind.after_live ?_ ?_ ?_
  · obtain ⟨P⟩ := P; cases K <;> cases P <;> decide +kernel
  · intro c hc
    simp only [viewsProg, List.mem_cons, List.not_mem_nil, or_false] at hc
    rcases hc with rfl | rfl | rfl <;> simp only [Cmd.Short] <;> decide
  · cases K <;> simp [viewsProg, permitted]

theorem viewsGet (K : Kind) (P : Profile) {i : Nat} (h : i < 3) :
    (K.after P viewsProg).hs[i]? = some (K.trie P viewsProg i) := by
  refine Kind.trie_get (Nat.lt_of_lt_of_le h (Nat.le_of_eq ?_))
  obtain ⟨P⟩ := P; cases K <;> cases P <;> decide +kernel

theorem viewsSmall (K : Kind) (P : Profile) : ∀ i < 3, (K.trie P viewsProg i).SmallValues := by
  obtain ⟨P⟩ := P; cases K <;> cases P <;> decide +kernel

theorem viewsNotHash (K : Kind) (P : Profile) : ∀ i < 3, ¬ (K.trie P viewsProg i).IsHash := by
  have h : ∀ i < 3, (match K.trie P viewsProg i with | .hash _ _ => false | _ => true) = true := by
    obtain ⟨P⟩ := P; cases K <;> cases P <;> decide +kernel
  intro i hi
  have := h i hi
  cases hx : K.trie P viewsProg i <;> simp_all [Trie.IsHash]

theorem viewsHash (K : Kind) (P : Profile) :
    ((K.trie P viewsProg 1).rootHash P kec0 (K.after P viewsProg).state).map (·.1) =
      ((K.trie P viewsProg 2).rootHash P kec0 (K.after P viewsProg).state).map (·.1) := by
  obtain ⟨P⟩ := P; cases K <;> cases P <;> decide +kernel

/-- They are different. -/
example (K : Kind) (P : Profile) : (K.trie P viewsProg 1).beq (K.trie P viewsProg 2) = false := by
  obtain ⟨P⟩ := P; cases K <;> cases P <;> decide +kernel

example (K : Kind) (P : Profile) {v v' : Bytes}
    (hg : (K.trie P viewsProg 1).get P (ofList [2, 1]) = .ok (some v))
    (hg' : (K.trie P viewsProg 2).get P (ofList [2, 1]) = .ok (some v')) :
    v = v' ∨ (K.trie P viewsProg 1).Collide kec0 (K.trie P viewsProg 2) :=
  C83_values (viewsLive K P) (viewsGet K P (by decide)) (viewsLive K P) (viewsGet K P (by decide))
    (viewsSmall K P _ (by decide)) (viewsSmall K P _ (by decide)) (viewsNotHash K P _ (by decide))
    (viewsNotHash K P _ (by decide)) (viewsHash K P) (by decide) hg hg'

/-- These lookups return, and so do the insertions and the deletion below. -/
example (K : Kind) (P : Profile) :
    (K.trie P viewsProg 1).get P (ofList [2, 1]) = .ok (some (List.replicate 40 3)) ∧
    (K.trie P viewsProg 2).get P (ofList [2, 1]) = .ok (some (List.replicate 40 3)) ∧
    K.obs P kec0 (viewsProg ++ inserts 1 [([2, 2], .val [8]), ([1, 3], .val [9])] ++
      inserts 2 [([2, 2], .val [8]), ([1, 3], .val [9])] ++ [.hash 1, .hash 2, .delete 1 [2, 1],
      .delete 2 [2, 1], .hash 1, .hash 2]) = .ok [.unit, .unit, .unit, .unit, .unit, .unit, .unit,
        .root (Vector.replicate 32 85), .root (Vector.replicate 32 85),
        .val (some (List.replicate 40 3)), .val (some (List.replicate 40 3)),
        .root (Vector.replicate 32 54), .root (Vector.replicate 32 54)] := by
  obtain ⟨P⟩ := P; cases K <;> cases P <;> refine ⟨?_, ?_, ?_⟩ <;> decide +kernel

example (K : Kind) (P : Profile) {r r' : Sys K.Ann K.State} {os os' : List Obs}
    (hr : (K.after P viewsProg).run P kec0 (inserts 1 [([2, 2], .val [8]), ([1, 3], .val [9])]) = .ok (r, os))
    (hr' : (K.after P viewsProg).run P kec0 (inserts 2 [([2, 2], .val [8]), ([1, 3], .val [9])]) =
      .ok (r', os')) :
    (∃ u u', r.hs[1]? = some u ∧ r'.hs[2]? = some u' ∧
      (u.rootHash P kec0 r.state).map (·.1) = (u'.rootHash P kec0 r'.state).map (·.1)) ∨
      (K.trie P viewsProg 1).Collide kec0 (K.trie P viewsProg 2) :=
  C83_inserts (viewsLive K P) (viewsGet K P (by decide)) (viewsLive K P) (viewsGet K P (by decide))
    (viewsSmall K P _ (by decide)) (viewsSmall K P _ (by decide)) (viewsNotHash K P _ (by decide))
    (viewsNotHash K P _ (by decide)) (viewsHash K P) (by simp) hr hr'

theorem mem_items_of_hash {α : Type} {t : Trie α} {q : Key} {u : Trie α} (h : t.NodeAt q u) (hu : u.IsHash) :
    ∃ x, (q, .hash x) ∈ t.plain.items [] := by
  cases u with
  | hash a x => exact ⟨x, (t.lists.2 q _).2 (at_hash.1 h.at)⟩
  | _ => cases hu

theorem not_strands_of {α β : Type} {t : Trie α} {t' : Trie β} {k : Key}
    (h : ∀ x ∈ t.plain.items [], x.2.isVal = false → ¬ x.1.dropLast <+: k) : ¬ t.Strands t' k := by
  rintro ⟨q, d, j, r, a, cs, v, b, x, u, c, n, w, rfl, h1, _, _, _, _, h2, _⟩
  have h3 : At t.plain (q ++ [j]) (.hash x) := by
    refine h1.at.append (.branch _ _ _ _ _ ?_)
    rw [h2]; exact .here _
  refine h _ ((t.lists.2 _ _).2 (at_hash.1 h3)) rfl ?_
  simp

example (K : Kind) (P : Profile) {u u' : Trie K.Ann} {o o' : Option Bytes} {st st' : K.State}
    (hd : (K.trie P viewsProg 1).delete P (ofList [2, 1]) (K.after P viewsProg).state = .ok ((u, o), st))
    (hd' : (K.trie P viewsProg 2).delete P (ofList [2, 1]) (K.after P viewsProg).state =
      .ok ((u', o'), st')) :
    (o = o' ∧ (u.rootHash P kec0 st).map (·.1) = (u'.rootHash P kec0 st').map (·.1)) ∨
      (K.trie P viewsProg 1).Collide kec0 (K.trie P viewsProg 2) := by
  refine C83_delete (viewsLive K P) (viewsGet K P (by decide)) (viewsLive K P) (viewsGet K P (by decide))
    (viewsSmall K P _ (by decide)) (viewsSmall K P _ (by decide)) (viewsNotHash K P _ (by decide))
    (viewsNotHash K P _ (by decide)) (viewsHash K P) (by decide) (not_strands_of ?_) (not_strands_of ?_) hd hd'
  all_goals obtain ⟨P⟩ := P; cases K <;> cases P <;> decide +kernel

/-- A value of one subset that is in the other. -/
example (K : Kind) {v : Bytes} (hg : (K.trie ⟨true⟩ viewsProg 1).get ⟨true⟩ (ofList [2, 1]) = .ok (some v)) :
    (K.trie ⟨true⟩ viewsProg 2).get ⟨true⟩ (ofList [2, 1]) = .ok (some v) ∨
      (K.trie ⟨true⟩ viewsProg 1).Collide kec0 (K.trie ⟨true⟩ viewsProg 2) := by
  refine C83_value (viewsLive K _) (viewsGet K _ (by decide)) (viewsLive K _) (viewsGet K _ (by decide))
    (viewsSmall K _ _ (by decide)) (viewsSmall K _ _ (by decide)) (viewsNotHash K _ _ (by decide))
    (viewsHash K _) (by decide) hg (fun q u hu hh => ?_) (.inl rfl)
  obtain ⟨x, hx⟩ := mem_items_of_hash hu hh
  have : ∀ y ∈ (K.trie ⟨true⟩ viewsProg 2).plain.items [], y.2.isVal = false → ¬ y.1 <+: [2, 1] := by
    cases K <;> decide +kernel
  exact this _ hx rfl

end EthTrie
