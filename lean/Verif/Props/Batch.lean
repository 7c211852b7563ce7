import Verif.Props.Subsets
import Verif.Subset.Carried

/-!
# Property C32: exactly what `create_trie_subsets` returns
-/

namespace EthTrie

open Spec KMap LNode Nibbles

variable {K : Kind} {M : Mode} {P : Profile} {kec : Bytes → H256} {s : Sys K.Ann K.State}
  {i : Nat} {t : Trie K.Ann}

/-- The keys lead to the same child of the root of `t`: they begin with the same nibble (branch), or
both lead past the extension. -/
def Trie.SameChild {α : Type} (P : Profile) (t : Trie α) (k k' : Key) : Prop :=
  match t with
  | .branch _ _ _ => k ≠ [] ∧ k.head? = k'.head?
  | .ext _ n _ => Enters P n.toList k ∧ Enters P n.toList k'
  | _ => False

/-- The key leads to the root of `t`, which is a branch or an extension, and no further. -/
def Trie.StopsAtRoot {α : Type} (P : Profile) (t : Trie α) (q : Key) : Prop :=
  match t with
  | .branch _ _ _ => q = []
  | .ext _ n _ => ¬ Enters P n.toList q
  | _ => False

/-- The root of `t` has children. -/
def Trie.Inner {α : Type} (t : Trie α) : Prop :=
  (∃ a cs v, t = .branch a cs v) ∨ ∃ a n c, t = .ext a n c

theorem Trie.sameChild_plain {α : Type} (P : Profile) (t : Trie α) (k k' : Key) :
    t.SameChild P k k' ↔ t.plain.SameChild P k k' := by
  cases t <;> rfl

theorem subsets_at (h : Live K M P kec s) (hi : s.hs[i]? = some t) {kss : List (List Key)}
    (hk : ∀ ks ∈ kss, ∀ k ∈ ks, k.length ≤ 127)
    {ts : List (Trie K.Ann)} {st : K.State}
    (he : createTrieSubsets P kec t (kss.map fun ks => ks.map ofList) s.state = .ok (.ok ts, st))
    {j : Nat} {ks : List Key} {t' : Trie K.Ann} (hj : kss[j]? = some ks) (hj' : ts[j]? = some t')
    (hf : ks = [] → s.FreshAt kec i) :
    t'.WFKeys ∧ t'.plain = (LTracked.batch P t.plain (kss.take j).flatten ks).subset kec ∧
      ∃ tr, (LTracked.new t.plain).markAll P kss.flatten = .ok (.ok tr) := by
  obtain ⟨k1, _, ls, h2, _⟩ := h.subsets_ok hi hk he
  obtain ⟨l, hl, hl1, _⟩ := h.subsets_get hi hk he hj hj' h2
  refine ⟨k1.wfKeys (List.mem_append_right _ (List.mem_of_getElem? hj')), ?_, ?_⟩
  · rw [LTracked.new_eq_batch P] at h2
    have h3 := LTracked.subsetsL_batch _ _ _ _ _ _ h2
    rw [h3] at hl
    obtain ⟨ks', h4, h5⟩ := LTracked.batches_get _ _ _ _ _ _ _ hl
    rw [hj] at h4
    cases h4
    rw [hl1 hf, h5, List.nil_append]
  · have h3 := LTracked.subsetsL_outcome P kec kss (t := .new t.plain) (u := .new t.plain) rfl
    rw [h2] at h3
    revert h3
    rcases (LTracked.new t.plain).markAll P kss.flatten with e | (e | tr)
    · intro h; cases h
    · intro h; simp [Except.map] at h
    · intro _; exact ⟨tr, rfl⟩

/-- The subset made alone for other keys that can be marked. -/
theorem subset_same (h : Live K M P kec s) (hi : s.hs[i]? = some t) {ks : List Key}
    (hk : ∀ k ∈ ks, k.length ≤ 127) (hf : ks = [] → s.FreshAt kec i) {tr : LTracked}
    (hm : (LTracked.new t.plain).markAll P ks = .ok (.ok tr)) {t' : Trie K.Ann} (hw : t'.WFKeys)
    (ht' : t'.plain = (LTracked.flagged P t.plain ks).subset kec) :
    ∃ u st', createTrieSubset P kec t (ks.map ofList) s.state = .ok (.ok u, st') ∧
      u.beq t' = true := by
  obtain ⟨u, st', h1⟩ := h.subset_mk hi hk hm
  refine ⟨u, st', h1, ?_⟩
  obtain ⟨g1, _, tr', g2, g3⟩ := h.subset_ok hi hk h1
  rw [Trie.beq_iff_plain (g1.wfKeys (by simp)) hw, g3, standIn_fresh hi hf g2, ht',
    LTracked.markAll_new g2]

/-- C32, exactly: for a list with keys, `create_trie_subsets` returns the subset for the keys of the
list and those keys of earlier lists that lead to the same child of the root as a key of the list. -/
theorem C32_exact (h : Live K M P kec s) (hi : s.hs[i]? = some t) {kss : List (List Key)}
    (hk : ∀ ks ∈ kss, ∀ k ∈ ks, k.length ≤ 127)
    {ts : List (Trie K.Ann)} {st : K.State}
    (he : createTrieSubsets P kec t (kss.map fun ks => ks.map ofList) s.state = .ok (.ok ts, st))
    {j : Nat} {ks : List Key} {t' : Trie K.Ann} (hj : kss[j]? = some ks) (hj' : ts[j]? = some t')
    (hne : ks ≠ []) {extra : List Key}
    (hextra : ∀ k, k ∈ extra ↔ (∃ ks' ∈ kss.take j, k ∈ ks') ∧ ∃ k' ∈ ks, t.SameChild P k k') :
    ∃ u st', createTrieSubset P kec t ((ks ++ extra).map ofList) s.state = .ok (.ok u, st') ∧
      u.beq t' = true := by
  obtain ⟨h1, h2, tr, h3⟩ := subsets_at h hi hk he hj hj' fun e => absurd e hne
  have hsub : ∀ k ∈ ks ++ extra, k ∈ kss.flatten := by
    intro k hk'
    rcases List.mem_append.1 hk' with hk' | hk'
    · exact List.mem_flatten.2 ⟨ks, List.mem_of_getElem? hj, hk'⟩
    · obtain ⟨⟨ks', m1, m2⟩, _⟩ := (hextra k).1 hk'
      exact List.mem_flatten.2 ⟨ks', List.mem_of_mem_take m1, m2⟩
  obtain ⟨tr', h4⟩ := LTracked.markAll_fewer hsub h3
  refine subset_same h hi (fun k hk' => ?_) (fun e => by simp [hne] at e) h4 h1 ?_
  · obtain ⟨ks', m1, m2⟩ := List.mem_flatten.1 (hsub k hk')
    exact hk ks' m1 k m2
  · rw [h2]
    refine LTracked.batch_extra hne fun k => ?_
    rw [hextra, List.mem_flatten]
    simp only [Trie.sameChild_plain]

/-- The first of two subsets, for which there are no further keys. -/
example (K : Kind) (P : Profile) : ∃ ts st, createTrieSubsets P kec0 (caseT K P 0)
      (caseKss.map fun ks => ks.map ofList) (caseS K P).state = .ok (.ok ts, st) ∧
    ∀ t', ts[0]? = some t' → ∃ u st', createTrieSubset P kec0 (caseT K P 0) (([[1, 2], [1, 3]] ++ [] : List Key).map ofList)
      (caseS K P).state = .ok (.ok u, st') ∧ u.beq t' = true :=
  have ⟨ts, st, he⟩ := caseSubsets K P
  ⟨ts, st, he, fun _ hj => C32_exact (caseLive K P) (caseGet K P (by decide)) (by decide) he (j := 0) rfl hj
    (by decide) (by simp [caseKss])⟩

/-- C32, exactly, for an empty list after a list with keys: if the root has children, the root is kept
and nothing else; this is the subset for a key that stops at the root. -/
theorem C32_exact_empty (h : Live K M P kec s) (hi : s.hs[i]? = some t) {kss : List (List Key)}
    (hk : ∀ ks ∈ kss, ∀ k ∈ ks, k.length ≤ 127)
    {ts : List (Trie K.Ann)} {st : K.State}
    (he : createTrieSubsets P kec t (kss.map fun ks => ks.map ofList) s.state = .ok (.ok ts, st))
    {j : Nat} {t' : Trie K.Ann} (hj : kss[j]? = some []) (hj' : ts[j]? = some t')
    (hf : s.FreshAt kec i) (hprev : ∃ ks' ∈ kss.take j, ks' ≠ [])
    {q : Key} (hq : t.StopsAtRoot P q) (hq64 : q.length ≤ 127)
    (hlong : ∀ a n c, t = .ext a n c → n.toList.length ≤ q.length) :
    ∃ u st', createTrieSubset P kec t [ofList q] s.state = .ok (.ok u, st') ∧
      u.beq t' = true := by
  obtain ⟨h1, h2, _⟩ := subsets_at h hi hk he hj hj' fun _ => hf
  have hp : (kss.take j).flatten ≠ [] := by
    obtain ⟨ks', m1, m2⟩ := hprev
    obtain ⟨k, hk'⟩ := List.exists_mem_of_ne_nil _ m2
    exact List.ne_nil_of_mem (List.mem_flatten.2 ⟨ks', m1, hk'⟩)
  have hm : ∃ tr, (LTracked.new t.plain).markAll P [q] = .ok (.ok tr) := by
    cases t with
    | branch a cs v => cases hq; exact ⟨_, rfl⟩
    | ext a n c =>
      have hl := hlong a n c rfl
      have : ¬ n.toList <+: q := fun e => hq (.inl e)
      refine ⟨.ext n.toList (LTracked.new c.plain) true, ?_⟩
      simp only [Trie.plain, LTracked.new, LTracked.markAll, LTracked.mark, LTracked.extRest, if_pos hl,
        if_neg this]
      rfl
    | _ => exact hq.elim
  obtain ⟨tr, hm⟩ := hm
  refine subset_same (ks := [q]) h hi (by simpa using hq64) (by simp) hm h1 ?_
  rw [h2]
  refine LTracked.batch_empty hp ?_
  cases t <;> exact hq

/-- C32, exactly, for an empty list if all earlier lists are empty or the root has no children: the
subset for no keys. -/
theorem C32_exact_forgets (h : Live K M P kec s) (hi : s.hs[i]? = some t) {kss : List (List Key)}
    (hk : ∀ ks ∈ kss, ∀ k ∈ ks, k.length ≤ 127)
    {ts : List (Trie K.Ann)} {st : K.State}
    (he : createTrieSubsets P kec t (kss.map fun ks => ks.map ofList) s.state = .ok (.ok ts, st))
    {j : Nat} {t' : Trie K.Ann} (hj : kss[j]? = some []) (hj' : ts[j]? = some t')
    (hf : s.FreshAt kec i) (hprev : (∀ ks' ∈ kss.take j, ks' = []) ∨ ¬ t.Inner) :
    ∃ u st', createTrieSubset P kec t [] s.state = .ok (.ok u, st') ∧ u.beq t' = true := by
  obtain ⟨h1, h2, _⟩ := subsets_at h hi hk he hj hj' fun _ => hf
  refine subset_same (ks := []) h hi (by simp) (fun _ => hf) rfl h1 ?_
  rw [h2, LTracked.batch_forgets]
  rcases hprev with hprev | hprev
  · left
    rw [List.eq_nil_iff_forall_not_mem]
    intro k hk'
    obtain ⟨ks', m1, m2⟩ := List.mem_flatten.1 hk'
    rw [hprev ks' m1] at m2
    cases m2
  · right
    constructor
    · intro n c e
      cases t with
      | ext a n c => exact hprev (.inr ⟨a, n, c, rfl⟩)
      | _ => cases e
    · intro cs v e
      cases t with
      | branch a cs v => exact hprev (.inl ⟨a, cs, v, rfl⟩)
      | _ => cases e

/-- The subsets of `batchProg` (see `C32_false`): the second one is the one for the keys of both lists;
an empty list that follows gives the root only. -/
example : ∀ K : Kind, ∀ P : Profile, K.obs P kec0 [batchProg.head (by decide),
    .subsets 0 [[[1, 1, 1]], [[1, 2, 1]], [[2, 2, 1]], []],
    .subset 0 [[1, 2, 1], [1, 1, 1]], .eq 2 5, .subset 0 [[2, 2, 1]], .eq 3 6,
    .subset 0 [[]], .eq 4 7, .subset 0 [], .eq 4 8] =
    .ok [.unit, .unit, .unit, .bool true, .unit, .bool true, .unit, .bool true, .unit, .bool false] := by
  intro K ⟨P⟩; cases K <;> cases P <;> decide +kernel

/-- The same below an extension: all earlier keys count if one of the keys leads past it. -/
example : ∀ K : Kind, ∀ P : Profile, K.obs P kec0
    [.fromIter [([5, 1, 1, 1], .val (List.replicate 40 1)), ([5, 1, 2, 1], .val (List.replicate 40 2)),
      ([5, 2, 2, 1], .val (List.replicate 40 3))],
    .subsets 0 [[[5, 1, 1, 1]], [[5, 2, 2, 1]], [[6]], []],
    .subset 0 [[5, 2, 2, 1], [5, 1, 1, 1]], .eq 2 5, .subset 0 [[6]], .eq 3 6, .eq 4 6] =
    .ok [.unit, .unit, .unit, .bool true, .unit, .bool true, .bool true] := by
  intro K ⟨P⟩; cases K <;> cases P <;> decide +kernel

end EthTrie
