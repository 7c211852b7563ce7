import Verif.Props.Hashing
import Verif.Spec.View
import Verif.Sys.Cells
import Verif.Trie.ViewOps

/-!
# Partial views, nodes and subsets of live handles
-/

namespace EthTrie

open Spec KMap LNode Nibbles

variable {K : Kind} {M : Mode} {P : Profile} {kec : Bytes → H256} {s : Sys K.Ann K.State}
  {i : Nat} {t : Trie K.Ann}

theorem Live.plain (h : Live K M P kec s) (ht : t ∈ s.hs) : t.Plain kec := by
  obtain ⟨w, p, Z, h1, _⟩ := h.inv.ex
  rw [h1.hs, List.mem_map] at ht
  obtain ⟨a, ha, rfl⟩ := ht
  have hr := (h1.ok a ha).rep
  rw [Trie.Plain, hr.plain]
  exact repN_bare hr

/-- Partial views in terms of list-keyed tries. -/
theorem viewOf_iff {α β : Type} {p : Trie α} {t : Trie β} (hp : p.Plain kec) (ht : t.Plain kec) :
    p.ViewOf P kec t ↔ View kec p.plain t.plain := by
  constructor
  · intro h
    induction h with
    | away a h t he =>
      rw [ht.refer] at he
      simp only [Except.ok.injEq] at he
      exact .away _ _ he
    | empty a b => exact .empty
    | branch a b ps cs v h ih => exact .branch _ _ _ fun i => ih i (hp.branch i) (ht.branch i)
    | ext a b n p c h ih => exact .ext _ _ _ (ih hp.ext.1 ht.ext.1)
    | leaf a b n v => exact .leaf _ _
  · intro h
    induction p generalizing t with
    | empty a =>
      cases t with
      | empty b => exact .empty _ _
      | _ => simp only [Trie.plain] at h; cases h
    | hash a x =>
      simp only [Trie.plain] at h
      have he : t.plain.enc kec = .hashed x := h.enc.symm
      exact .away _ _ _ (by rw [ht.refer, he])
    | branch a ps v ih =>
      cases t with
      | branch b cs w =>
        simp only [Trie.plain] at h
        cases h with
        | branch _ _ _ h => exact .branch _ _ _ _ _ fun i => ih i (hp.branch i) (ht.branch i) (h i)
      | _ => simp only [Trie.plain] at h; cases h
    | ext a n p ih =>
      cases t with
      | ext b m c =>
        simp only [Trie.plain] at h
        generalize e : m.toList = m' at h
        generalize e' : n.toList = n' at h
        cases h with
        | ext _ _ _ h =>
          have := toList_WF_inj hp.ext.2 ht.ext.2 (e'.trans e.symm)
          subst this
          exact .ext _ _ _ _ _ (ih hp.ext.1 ht.ext.1 h)
      | _ => simp only [Trie.plain] at h; cases h
    | leaf a n v =>
      cases t with
      | leaf b m w =>
        simp only [Trie.plain] at h
        generalize e : m.toList = m' at h
        generalize e' : n.toList = n' at h
        cases h with
        | leaf _ _ =>
          have := toList_WF_inj hp.leaf ht.leaf (e'.trans e.symm)
          subst this
          exact .leaf _ _ _ _
      | _ => simp only [Trie.plain] at h; cases h

/-- Nodes in terms of list-keyed tries. -/
theorem Trie.NodeAt.at {α : Type} {t u : Trie α} {q : Key} (h : t.NodeAt q u) :
    At t.plain q u.plain := by
  induction h with
  | here t => exact .here _
  | branch a cs v d q u h ih => exact .branch _ _ _ _ _ ih
  | ext a n c q u h ih => exact .ext _ _ _ _ ih

theorem nodeAt_of_at {α : Type} {t : Trie α} {q : Key} {l : LNode} (h : At t.plain q l) :
    ∃ u, t.NodeAt q u ∧ u.plain = l := by
  induction t generalizing q l with
  | empty a => simp only [Trie.plain] at h; cases h; exact ⟨_, .here _, rfl⟩
  | hash a x => simp only [Trie.plain] at h; cases h; exact ⟨_, .here _, rfl⟩
  | leaf a n v => simp only [Trie.plain] at h; cases h; exact ⟨_, .here _, rfl⟩
  | branch a cs v ih =>
    simp only [Trie.plain] at h
    cases h with
    | here => exact ⟨_, .here _, rfl⟩
    | branch _ _ d q _ h =>
      obtain ⟨u, h1, h2⟩ := ih d h
      exact ⟨u, .branch _ _ _ _ _ _ h1, h2⟩
  | ext a n c ih =>
    simp only [Trie.plain] at h
    cases h with
    | here => exact ⟨_, .here _, rfl⟩
    | ext _ _ q _ h =>
      obtain ⟨u, h1, h2⟩ := ih h
      exact ⟨u, .ext _ _ _ _ _ h1, h2⟩

theorem nodeAt_plain {α : Type} {t u : Trie α} {q : Key} (h : t.NodeAt q u) (ht : t.Plain kec) :
    u.Plain kec := by
  induction h with
  | here t => exact ht
  | branch a cs v d q u h ih => exact ih (ht.branch d)
  | ext a n c q u h ih => exact ih ht.ext.1

theorem last_get {α : Type} (l : List α) (x : α) : (l ++ [x])[l.length]? = some x := by simp

/-- What a successful call of `create_trie_subset` does. -/
theorem Live.subset_ok (h : Live K M P kec s) (hi : s.hs[i]? = some t) {ks : List Key}
    (hk : ∀ k ∈ ks, k.length ≤ 127) {t' : Trie K.Ann}
    {st : K.State} (he : createTrieSubset P kec t (ks.map ofList) s.state = .ok (.ok t', st)) :
    Live K .any P kec ⟨st, s.hs ++ [t']⟩ ∧ TrieKind.cacheGet t'.ann st = none ∧
    ∃ tr, (LTracked.new t.plain).markAll P ks = .ok (.ok tr) ∧
      t'.plain = standIn (TrieKind.cacheGet t.ann s.state) ks (tr.subset kec) := by
  have hex : s.exec P kec (.subset i ks) = .ok (⟨st, s.hs ++ [t']⟩, .unit) := by
    simp only [Sys.exec, exec_on hi, he, R_bind_ok, R_pure]
  refine ⟨.step (c := .subset i ks) h.any hk (permitted_any _ _) hex, ?_, ?_⟩
  · exact h.new_none (c := .subset i ks) hk (by simp) hex (Nat.le_refl _) (last_get s.hs t')
  · have := h.subset_exact hi hk
    rw [he] at this
    revert this
    rcases (LTracked.new t.plain).markAll P ks with e | (e | tr)
    · intro h; cases h
    · intro h; simp [Except.map] at h
    · intro h; simp only [Except.map, Except.ok.injEq] at h; exact ⟨tr, rfl, h⟩

theorem Live.subset_mk (h : Live K M P kec s) (hi : s.hs[i]? = some t) {ks : List Key}
    (hk : ∀ k ∈ ks, k.length ≤ 127) {tr : LTracked}
    (he : (LTracked.new t.plain).markAll P ks = .ok (.ok tr)) :
    ∃ t' st, createTrieSubset P kec t (ks.map ofList) s.state = .ok (.ok t', st) := by
  have := h.subset_exact hi hk
  rw [he] at this
  revert this
  rcases createTrieSubset P kec t (ks.map ofList) s.state with e | ⟨r | r, st⟩
  · intro h; cases h
  · intro h; simp [Except.map] at h
  · intro _; exact ⟨r, st, rfl⟩

/-- If the cell of the root is right, it makes no difference. -/
theorem standIn_fresh (hi : s.hs[i]? = some t) {ks : List Key} (hf : ks = [] → s.FreshAt kec i)
    {tr : LTracked} (he : (LTracked.new t.plain).markAll P ks = .ok (.ok tr)) :
    standIn (TrieKind.cacheGet t.ann s.state) ks (tr.subset kec) = tr.subset kec := by
  by_cases e : ks = []
  · subst e
    cases hc : TrieKind.cacheGet t.ann s.state with
    | none => rfl
    | some x =>
      cases he
      rw [LTracked.subset_eq]
      simp [LTracked.away, LTracked.touched_new, LTracked.node_new, hf rfl t hi x hc, standIn]
  · exact standIn_ne e _

/-- A new trie has an empty cell, so its hash is right. -/
theorem Live.hash_none (h : Live K M P kec s) (hi : s.hs[i]? = some t)
    (hn : TrieKind.cacheGet t.ann s.state = none) :
    (t.rootHash P kec s.state).map (·.1) = .ok (t.plain.rootHash kec) := by
  rw [h.hash_exact hi, hn]; rfl

/-- What a successful call of `create_trie_subsets` does. -/
theorem Live.subsets_ok (h : Live K M P kec s) (hi : s.hs[i]? = some t) {kss : List (List Key)}
    (hk : ∀ ks ∈ kss, ∀ k ∈ ks, k.length ≤ 127)
    {ts : List (Trie K.Ann)} {st : K.State}
    (he : createTrieSubsets P kec t (kss.map fun ks => ks.map ofList) s.state = .ok (.ok ts, st)) :
    Live K .any P kec ⟨st, s.hs ++ ts⟩ ∧ (∀ t' ∈ ts, TrieKind.cacheGet t'.ann st = none) ∧
    ∃ ls, PSys.subsetsL P kec (LTracked.new t.plain) kss = .ok (.ok ls) ∧
      ts.map Trie.plain = standIns (TrieKind.cacheGet t.ann s.state) t.plain.keepsMark false kss ls := by
  have hex : s.exec P kec (.subsets i kss) = .ok (⟨st, s.hs ++ ts⟩, .unit) := by
    simp only [Sys.exec, exec_on hi, he, R_bind_ok, R_pure]
  refine ⟨.step (c := .subsets i kss) h.any hk (permitted_any _ _) hex, ?_, ?_⟩
  · intro t' ht'
    obtain ⟨j, hj⟩ := List.getElem?_of_mem ht'
    exact h.new_none (c := .subsets i kss) (j := s.hs.length + j) hk (by simp) hex
      (Nat.le_add_right _ _) (by simp [List.getElem?_append_right, hj])
  · have := h.subsets_exact hi hk
    rw [he] at this
    revert this
    rcases PSys.subsetsL P kec (LTracked.new t.plain) kss with e | (e | rs)
    · intro h; cases h
    · intro h; simp [Except.map] at h
    · intro h; simp only [Except.map, Except.ok.injEq] at h; exact ⟨rs, rfl, h⟩

/-- One of the tries made by a successful call of `create_trie_subsets`. -/
theorem Live.subsets_get (h : Live K M P kec s) (hi : s.hs[i]? = some t) {kss : List (List Key)}
    (hk : ∀ ks ∈ kss, ∀ k ∈ ks, k.length ≤ 127)
    {ts : List (Trie K.Ann)} {st : K.State}
    (he : createTrieSubsets P kec t (kss.map fun ks => ks.map ofList) s.state = .ok (.ok ts, st))
    {j : Nat} {ks : List Key} {t' : Trie K.Ann} (hj : kss[j]? = some ks) (hj' : ts[j]? = some t')
    {ls : List LNode} (hl : PSys.subsetsL P kec (LTracked.new t.plain) kss = .ok (.ok ls)) :
    ∃ l, ls[j]? = some l ∧ ((ks = [] → s.FreshAt kec i) → t'.plain = l) ∧
      (j = 0 → t'.plain = standIn (TrieKind.cacheGet t.ann s.state) ks l) := by
  obtain ⟨_, _, ls', h1, h2⟩ := h.subsets_ok hi hk he
  rw [hl] at h1
  cases h1
  have hlen := PSys.subsetsL_length _ _ hl
  have hlt := (List.getElem?_eq_some_iff.1 hj).1
  obtain ⟨l, h3⟩ : ∃ l, ls[j]? = some l := ⟨_, List.getElem?_eq_getElem (by omega)⟩
  refine ⟨l, h3, fun hf => ?_, fun e => ?_⟩
  · by_cases e : ks = []
    · have := h.subsets_fresh hi hk fun _ => hf e
      rw [he, hl] at this
      simp only [Except.map, Except.ok.injEq] at this
      have h4 : (ts.map Trie.plain)[j]? = some t'.plain := by simp [hj']
      rw [this, h3] at h4
      cases h4; rfl
    · obtain ⟨d, h4, _⟩ := PSys.standIns_get (cell := TrieKind.cacheGet t.ann s.state)
        t.plain.keepsMark kss false ls hj h3
      rw [← h2, List.getElem?_map, hj', standIn_ne e] at h4
      simpa using h4
  · obtain ⟨d, h4, h5⟩ := PSys.standIns_get (cell := TrieKind.cacheGet t.ann s.state)
      t.plain.keepsMark kss false ls hj h3
    rw [← h2, List.getElem?_map, hj', h5 e] at h4
    simpa using h4

end EthTrie
