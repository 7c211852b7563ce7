import Verif.Sys.Views
import Verif.Subset.Mono

/-!
# Properties C26 – C34: hash nodes, subsets and partial tries
-/

namespace EthTrie

open Spec KMap LNode Nibbles

variable {K : Kind} {M : Mode} {P : Profile} {kec : Bytes → H256} {s : Sys K.Ann K.State}
  {i : Nat} {t : Trie K.Ann}

/-! ## C26 -/

theorem bare_unit (t : Trie Unit) : t.bare = t := by
  induction t with
  | empty a => rfl
  | hash a h => rfl
  | branch a cs v ih => simp only [Trie.bare, ih]
  | ext a n c ih => simp only [Trie.bare, ih]
  | leaf a n v => rfl

theorem run_cached (a : Unit) (p : Prog Unit EncodedNode) :
    ((cached a p).run : EthTrie.M Unit EncodedNode) = p.run := by
  funext s
  simp only [cached, Prog.run, TrieKind.cacheGet, Prog.run_bind, EthTrie.M.bind_run]
  rcases p.run s with e | ⟨e | e, st⟩ <;> rfl

theorem run_seq_congr {β : Type} {f g : Fin 16 → Prog Unit β} (l : List (Fin 16))
    (h : ∀ i, ((f i).run : EthTrie.M Unit β) = (g i).run) :
    ((Prog.seq (l.map f)).run : EthTrie.M Unit (List β)) = (Prog.seq (l.map g)).run := by
  induction l with
  | nil => rfl
  | cons i l ih => simp only [List.map_cons, Prog.seq, Prog.run_bind, h, ih]

theorem viewOf_encode {p t : Trie Unit} (h : p.ViewOf P kec t) :
    ((encodeNode P kec p).run : EthTrie.M Unit EncodedNode) = (encodeNode P kec t).run := by
  induction h with
  | away a h t he =>
    funext s
    rw [Trie.refer, bare_unit, hashIntern, run_cached] at he
    revert he
    cases ht : ((encodeNode P kec t).run : EthTrie.M Unit EncodedNode) () with
    | error e => intro h; cases h
    | ok r =>
      intro h
      simp only [Except.map, Except.ok.injEq] at h
      show Except.ok (EncodedNode.hashed _, ()) = _
      rw [← h]
  | empty a b => rfl
  | branch a b ps cs v h ih =>
    simp only [encodeNode, Prog.run_bind]
    rw [run_seq_congr (f := fun i => cached (ps i).ann (encodeNode P kec (ps i)))
      (g := fun i => cached (cs i).ann (encodeNode P kec (cs i)))]
    intro i
    rw [run_cached, run_cached, ih]
  | ext a b n p c h ih => simp only [encodeNode, Prog.run_bind, run_cached, ih]
  | leaf a b n v => rfl

/-- C26 for arbitrary tries without caches: replacing any sub-tries by hash nodes does not change the
root hash (nor whether hashing panics). -/
theorem C26_bare {p t : Trie Unit} (h : p.ViewOf P kec t) :
    p.rootHash P kec () = t.rootHash P kec () := by
  have := viewOf_encode h
  simp only [Trie.rootHash, hashProg, Prog.run, TrieKind.cacheGet, hashTrie, Prog.run_bind, this]

/-- C26 for tries of running programs, with their caches. -/
theorem C26_live [M.Safe] {K' : Kind} {M' : Mode} [M'.Safe] {P' : Profile} {s' : Sys K'.Ann K'.State} {i' : Nat}
    {p : Trie K'.Ann} (h : Live K M P kec s) (hi : s.hs[i]? = some t) (h' : Live K' M' P' kec s')
    (hi' : s'.hs[i']? = some p) (hv : p.ViewOf P kec t) :
    (p.rootHash P' kec s'.state).map (·.1) = (t.rootHash P kec s.state).map (·.1) := by
  rw [h.hash hi, h'.hash hi', ((viewOf_iff (h'.plain (List.mem_of_getElem? hi'))
    (h.plain (List.mem_of_getElem? hi))).1 hv).rootHash]

/-- A check for partial views. -/
def Trie.views {α β : Type} (P : Profile) (kec : Bytes → H256) : Trie α → Trie β → Bool
  | .hash _ h, t => decide (t.refer P kec = .ok (.hashed h))
  | .empty _, .empty _ => true
  | .branch _ ps v, .branch _ cs w =>
    decide (v = w) && (List.finRange 16).all fun i => (ps i).views P kec (cs i)
  | .ext _ n p, .ext _ m c => decide (n = m) && p.views P kec c
  | .leaf _ n v, .leaf _ m w => decide (n = m) && decide (v = w)
  | _, _ => false

theorem Trie.views_sound {α β : Type} {P : Profile} {kec : Bytes → H256} :
    ∀ (p : Trie α) (t : Trie β), p.views P kec t = true → p.ViewOf P kec t := by
  intro p
  induction p with
  | hash a h => intro t ht; exact .away _ _ _ (of_decide_eq_true (by simpa [Trie.views] using ht))
  | empty a => intro t ht; cases t <;> first | exact .empty _ _ | cases ht
  | branch a ps v ih =>
    intro t ht
    cases t with
    | branch b cs w =>
      simp only [Trie.views, Bool.and_eq_true, decide_eq_true_eq, List.all_eq_true] at ht
      obtain ⟨rfl, ht⟩ := ht
      exact .branch _ _ _ _ _ fun i => ih i _ (ht i (List.mem_finRange i))
    | _ => cases ht
  | ext a n p ih =>
    intro t ht
    cases t with
    | ext b m c =>
      simp only [Trie.views, Bool.and_eq_true, decide_eq_true_eq] at ht
      obtain ⟨rfl, ht⟩ := ht
      exact .ext _ _ _ _ _ (ih _ ht)
    | _ => cases ht
  | leaf a n v =>
    intro t ht
    cases t with
    | leaf b m w =>
      simp only [Trie.views, Bool.and_eq_true, decide_eq_true_eq] at ht
      obtain ⟨rfl, rfl⟩ := ht
      exact .leaf _ _ _ _
    | _ => cases ht

theorem caseView (K : Kind) (P : Profile) : (caseT K P 2).ViewOf P kec0 (caseT K P 0) :=
  Trie.views_sound _ _ (by obtain ⟨P⟩ := P; cases K <;> cases P <;> decide +kernel)

/-- A subset of the trie that it was made from. -/
example (K : Kind) (P : Profile) :
    ((caseT K P 2).rootHash P kec0 (caseS K P).state).map (·.1) =
    ((caseT K P 0).rootHash P kec0 (caseS K P).state).map (·.1) :=
  C26_live (caseLive K P) (caseGet K P (by decide)) (caseLive K P) (caseGet K P (by decide)) (caseView K P)

/-- The root hash of a branch is the one of the branch with a child replaced. -/
example : (Trie.branch () (upd (fun _ => .empty ()) 2 (.hash () (Vector.replicate 32 42)))
    [7] : Trie Unit).ViewOf .debug kec0
    (Trie.branch () (upd (fun _ => .empty ()) 2 (.leaf () ⟨3, 0x123⟩ (List.replicate 37 1))) [7]) := by
  refine .branch _ _ _ _ _ fun i => ?_
  by_cases hi : i = 2
  · subst hi
    rw [upd_same, upd_same]
    exact .away _ _ _ (by decide +kernel)
  · rw [upd_other _ _ hi, upd_other _ _ hi]; exact .empty _ _

/-! ## C27, C28 -/

/-- C27: a subset has the root hash of the original. -/
theorem C27_subset [M.Safe] (h : Live K M P kec s) (hi : s.hs[i]? = some t) {ks : List Key}
    (hk : ∀ k ∈ ks, k.length ≤ 127) {t' : Trie K.Ann}
    {st : K.State} (he : createTrieSubset P kec t (ks.map ofList) s.state = .ok (.ok t', st)) :
    (t'.rootHash P kec st).map (·.1) = (t.rootHash P kec s.state).map (·.1) := by
  obtain ⟨h1, h0, tr, h2, h3⟩ := h.subset_ok hi hk he
  rw [standIn_fresh hi (fun _ => h.freshAt i) h2] at h3
  have h4 := h1.hash_none (last_get s.hs t') h0
  rw [h.hash hi]
  refine Eq.trans h4 ?_
  rw [h3, (LTracked.subset_view tr).rootHash, LTracked.markAll_new h2, LTracked.flagged_node]

example (K : Kind) (P : Profile) : ∃ t' st,
    createTrieSubset P kec0 (caseT K P 0) ([[1, 2]].map ofList) (caseS K P).state = .ok (.ok t', st) ∧
    (t'.rootHash P kec0 st).map (·.1) = ((caseT K P 0).rootHash P kec0 (caseS K P).state).map (·.1) :=
  have ⟨t', st, he⟩ := caseSubset K P
  ⟨t', st, he, C27_subset (caseLive K P) (caseGet K P (by decide)) (by decide) he⟩

/-- C27 in programs with stale caches: a subset for some keys has the root hash that the original has
without its caches. -/
theorem C27_any (h : Live K M P kec s) (hi : s.hs[i]? = some t) {ks : List Key} (hne : ks ≠ [])
    (hk : ∀ k ∈ ks, k.length ≤ 127) {t' : Trie K.Ann}
    {st : K.State} (he : createTrieSubset P kec t (ks.map ofList) s.state = .ok (.ok t', st)) :
    (t'.rootHash P kec st).map (·.1) = (t.bare.rootHash P kec ()).map (·.1) := by
  obtain ⟨h1, h0, tr, h2, h3⟩ := h.subset_ok hi hk he
  rw [standIn_ne hne] at h3
  have h4 := h1.hash_none (last_get s.hs t') h0
  rw [bare_rootHash h hi]
  refine Eq.trans h4 ?_
  rw [h3, (LTracked.subset_view tr).rootHash, LTracked.markAll_new h2, LTracked.flagged_node]

example (K : Kind) (P : Profile) : ∃ t' st,
    createTrieSubset P kec0 (caseT K P 0) ([[1, 2]].map ofList) (caseS K P).state = .ok (.ok t', st) ∧
    (t'.rootHash P kec0 st).map (·.1) = ((caseT K P 0).bare.rootHash P kec0 ()).map (·.1) :=
  have ⟨t', st, he⟩ := caseSubset K P
  ⟨t', st, he, C27_any (caseLive K P) (caseGet K P (by decide)) (by decide) (by decide) he⟩

/-- A subset is a partial view of the original.  (For no keys the cache of the root must not be
stale.) -/
theorem C27_view (h : Live K M P kec s) (hi : s.hs[i]? = some t) {ks : List Key}
    (hk : ∀ k ∈ ks, k.length ≤ 127) (hf : ks = [] → s.FreshAt kec i) {t' : Trie K.Ann}
    {st : K.State} (he : createTrieSubset P kec t (ks.map ofList) s.state = .ok (.ok t', st)) :
    t'.ViewOf P kec t := by
  obtain ⟨h1, _, tr, h2, h3⟩ := h.subset_ok hi hk he
  rw [standIn_fresh hi hf h2] at h3
  rw [viewOf_iff (h1.plain (by simp)) (h.plain (List.mem_of_getElem? hi)), h3]
  have := LTracked.subset_view (kec := kec) tr
  rwa [LTracked.markAll_new h2, LTracked.flagged_node, ← LTracked.markAll_new h2] at this

example (K : Kind) (P : Profile) : ∃ t' st,
    createTrieSubset P kec0 (caseT K P 0) ([[1, 2]].map ofList) (caseS K P).state = .ok (.ok t', st) ∧
    t'.ViewOf P kec0 (caseT K P 0) :=
  have ⟨t', st, he⟩ := caseSubset K P
  ⟨t', st, he, C27_view (caseLive K P) (caseGet K P (by decide)) (by decide) (fun h => by cases h) he⟩

theorem subsetsL_each {kec : Bytes → H256} : ∀ (kss : List (List Key)) (u : LTracked)
    (rs : List LNode), PSys.subsetsL P kec u kss = .ok (.ok rs) →
    List.Forall₂ (fun ks r => ∃ t₀ tr : LTracked, t₀.node = u.node ∧
      t₀.markAll P ks = .ok (.ok tr) ∧ r = tr.subset kec) kss rs := by
  intro kss
  induction kss with
  | nil => intro u rs h; simp [PSys.subsetsL] at h; subst h; exact .nil
  | cons ks kss ih =>
    intro u rs h
    simp only [PSys.subsetsL] at h
    rcases hm : u.markAll P ks with e | (e | t')
    · simp [hm] at h
    · simp [hm] at h
    · simp only [hm, R_bind_ok] at h
      rcases hs : PSys.subsetsL P kec t'.reset kss with e | (e | rs')
      · simp [hs] at h
      · simp [hs] at h
      · simp [hs] at h
        subst h
        refine .cons ⟨u, t', rfl, hm, rfl⟩ ?_
        refine (ih _ _ hs).imp fun ks' r ⟨t₀, tr, h1, h2⟩ => ⟨t₀, tr, ?_, h2⟩
        rw [h1, LTracked.node_reset, LTracked.markAll_node P ks u t' hm]

/-- C27: so has each of several subsets. -/
theorem C27_subsets [M.Safe] (h : Live K M P kec s) (hi : s.hs[i]? = some t) {kss : List (List Key)}
    (hk : ∀ ks ∈ kss, ∀ k ∈ ks, k.length ≤ 127)
    {ts : List (Trie K.Ann)} {st : K.State}
    (he : createTrieSubsets P kec t (kss.map fun ks => ks.map ofList) s.state = .ok (.ok ts, st)) :
    ts.length = kss.length ∧ ∀ t' ∈ ts,
      (t'.rootHash P kec st).map (·.1) = (t.rootHash P kec s.state).map (·.1) ∧
      t'.ViewOf P kec t := by
  obtain ⟨h1, h0, ls, h2, _⟩ := h.subsets_ok hi hk he
  have h2' := h.subsets hi hk
  rw [he, h2] at h2'
  simp only [Except.map, Except.ok.injEq] at h2'
  subst h2'
  have h3 := subsetsL_each _ _ _ h2
  refine ⟨by simpa using h3.length_eq.symm, fun t' ht' => ?_⟩
  have h4 : View kec t'.plain t.plain := by
    obtain ⟨j, hj, rfl⟩ := List.mem_iff_getElem.1 ht'
    have hl := h3.length_eq
    rw [List.length_map] at hl
    obtain ⟨t₀, tr, g1, g2, g3⟩ := (List.forall₂_iff_get.1 h3).2 j (by omega) (by simpa using hj)
    simp only [List.get_eq_getElem, List.getElem_map] at g3
    rw [g3]
    have := LTracked.subset_view (kec := kec) tr
    rwa [LTracked.markAll_node P _ _ _ g2, g1, LTracked.node_new] at this
  obtain ⟨j, hj⟩ := List.getElem?_of_mem (List.mem_append_right s.hs ht')
  have h5 := h1.hash_none hj (h0 t' ht')
  rw [h.hash hi, viewOf_iff (h1.plain (List.mem_append_right _ ht'))
    (h.plain (List.mem_of_getElem? hi))]
  exact ⟨h5.trans (by rw [h4.rootHash]), h4⟩

example (K : Kind) (P : Profile) : ∃ ts st, createTrieSubsets P kec0 (caseT K P 0)
      (caseKss.map fun ks => ks.map ofList) (caseS K P).state = .ok (.ok ts, st) ∧ ts.length = 2 ∧ ∀ t' ∈ ts,
    (t'.rootHash P kec0 st).map (·.1) = ((caseT K P 0).rootHash P kec0 (caseS K P).state).map (·.1) ∧
    t'.ViewOf P kec0 (caseT K P 0) :=
  have ⟨ts, st, he⟩ := caseSubsets K P
  ⟨ts, st, he, C27_subsets (caseLive K P) (caseGet K P (by decide)) (by decide) he⟩

/-- C28: a subset answers the requested keys (including panics, for keys that make `get` panic on the
original). -/
theorem C28_subset (h : Live K M P kec s) (hi : s.hs[i]? = some t) {ks : List Key}
    (hk : ∀ k ∈ ks, k.length ≤ 127) {t' : Trie K.Ann}
    {st : K.State} (he : createTrieSubset P kec t (ks.map ofList) s.state = .ok (.ok t', st))
    (k : Key) (hkk : k ∈ ks) : t'.get P (ofList k) = t.get P (ofList k) := by
  obtain ⟨h1, _, tr, h2, h3⟩ := h.subset_ok hi hk he
  rw [standIn_ne (List.ne_nil_of_mem hkk)] at h3
  rw [h1.get (last_get s.hs t') (hk k hkk), h.get hi (hk k hkk), h3,
    LTracked.touch_get P kec tr k (LTracked.markAll_touch P ks h2 k hkk), LTracked.markAll_new h2,
    LTracked.flagged_node]

example (K : Kind) (P : Profile) : ∃ t' st,
    createTrieSubset P kec0 (caseT K P 0) ([[1, 2]].map ofList) (caseS K P).state = .ok (.ok t', st) ∧
    t'.get P (ofList [1, 2]) = (caseT K P 0).get P (ofList [1, 2]) :=
  have ⟨t', st, he⟩ := caseSubset K P
  ⟨t', st, he, C28_subset (caseLive K P) (caseGet K P (by decide)) (by decide) he _ (by decide)⟩

/-- C28 for several subsets. -/
theorem C28_subsets (h : Live K M P kec s) (hi : s.hs[i]? = some t) {kss : List (List Key)}
    (hk : ∀ ks ∈ kss, ∀ k ∈ ks, k.length ≤ 127)
    {ts : List (Trie K.Ann)} {st : K.State}
    (he : createTrieSubsets P kec t (kss.map fun ks => ks.map ofList) s.state = .ok (.ok ts, st))
    {j : Nat} {ks : List Key} {t' : Trie K.Ann} (hj : kss[j]? = some ks) (hj' : ts[j]? = some t')
    (k : Key) (hkk : k ∈ ks) : t'.get P (ofList k) = t.get P (ofList k) := by
  obtain ⟨h1, _, ls, h2, _⟩ := h.subsets_ok hi hk he
  obtain ⟨l, hl, hl1, _⟩ := h.subsets_get hi hk he hj hj' h2
  replace hl1 := hl1 fun e => absurd e (List.ne_nil_of_mem hkk)
  have h3 := subsetsL_each _ _ _ h2
  have hkl := hk ks (List.mem_of_getElem? hj) k hkk
  obtain ⟨hj1, rfl⟩ := List.getElem?_eq_some_iff.1 hj
  obtain ⟨hj2, rfl⟩ := List.getElem?_eq_some_iff.1 hl
  obtain ⟨t₀, tr, g1, g2, g3⟩ := (List.forall₂_iff_get.1 h3).2 j hj1 hj2
  simp only [List.get_eq_getElem] at g2 g3
  obtain ⟨j', hj'⟩ := List.getElem?_of_mem (List.mem_append_right s.hs (List.mem_of_getElem? hj'))
  rw [h1.get hj' hkl, h.get hi hkl, hl1, g3,
    LTracked.touch_get P kec tr k (LTracked.markAll_touch P _ g2 k hkk),
    LTracked.markAll_node P _ _ _ g2, g1, LTracked.node_new]

example (K : Kind) (P : Profile) : ∃ ts st, createTrieSubsets P kec0 (caseT K P 0)
      (caseKss.map fun ks => ks.map ofList) (caseS K P).state = .ok (.ok ts, st) ∧
    ∀ t', ts[1]? = some t' → t'.get P (ofList [2, 5, 6, 7]) = (caseT K P 0).get P (ofList [2, 5, 6, 7]) :=
  have ⟨ts, st, he⟩ := caseSubsets K P
  ⟨ts, st, he, fun _ hj => C28_subsets (caseLive K P) (caseGet K P (by decide)) (by decide) he (j := 1) rfl hj _
    (by decide)⟩

/-- The entries of the trie of the examples. -/
def exEntries : List (Key × ValOrHash) :=
  [([1, 1, 1], .val (List.replicate 40 1)), ([1, 2, 1], .val (List.replicate 40 2)),
   ([2, 2, 1], .val (List.replicate 40 3)), ([2, 3], .val [9])]

/-- C27, C28: a subset and a batch of two; two leaves of handle 1 are hashed away. -/
example : ∀ K : Kind, ∀ P : Profile, K.obs P kec0 [.fromIter exEntries, .subset 0 [[1, 2, 1]],
    .subsets 0 [[[1, 2, 1]], [[2, 3]]], .hash 0, .hash 1, .hash 2, .hash 3, .get 1 [1, 2, 1],
    .get 3 [2, 3], .items 1] =
    .ok [.unit, .unit, .unit, .root (Vector.replicate 32 83), .root (Vector.replicate 32 83),
      .root (Vector.replicate 32 83), .root (Vector.replicate 32 83),
      .val (some (List.replicate 40 2)), .val (some [9]),
      .items (packEntries [([1, 1], .hash (Vector.replicate 32 43)),
        ([1, 2, 1], .val (List.replicate 40 2)), ([2], .hash (Vector.replicate 32 52))])] := by
  intro K ⟨P⟩; cases K <;> cases P <;> decide +kernel

/-! ## C29 -/

/-- C29: each node of a subset is at a position visited for a requested key, or it is a hash node, or
its encoding has less than 32 bytes.  (The positions visited for `k` are the prefixes of `k`; without
overflow checks also the ones at the end of a run of zeros.) -/
theorem C29_minimal (h : Reached K M P kec s) (hi : s.hs[i]? = some t) {ks : List Key}
    (hk : ∀ k ∈ ks, k.length ≤ 127) {t' : Trie K.Ann}
    {st : K.State} (he : createTrieSubset P kec t (ks.map ofList) s.state = .ok (.ok t', st))
    {q : Key} {u : Trie K.Ann} (hu : t'.NodeAt q u) :
    (∃ k ∈ ks, q <+: k ∨ (P.overflowChecks = false ∧
      ∃ q₀ j, q = q₀ ++ List.replicate j 0 ∧ q₀ <+: k ∧ k.length < q₀.length + j)) ∨
    (∃ a x, u = .hash a x) ∨ ∀ J, Lists J u.contents → (Spec.node kec J).length < 32 := by
  obtain ⟨h1, _, tr, h2, h3⟩ := h.live.subset_ok hi hk he
  by_cases hst : ∃ x, t'.plain = .hash x
  · obtain ⟨x, hx⟩ := hst
    have ha := hu.at
    rw [hx] at ha
    generalize hup : u.plain = l at ha
    cases ha
    right; left
    cases u with
    | hash a y => exact ⟨a, y, rfl⟩
    | _ => simp [Trie.plain] at hup
  have h3 : t'.plain = tr.subset kec := by
    rw [h3]
    generalize TrieKind.cacheGet t.ann s.state = cell at h3 ⊢
    match cell, ks with
    | some x, [] => exact absurd ⟨x, h3⟩ hst
    | none, [] => rfl
    | _, _ :: _ => exact standIn_ne (by simp) _
  have hv : View kec t'.plain t.plain := by
    rw [h3]
    have := LTracked.subset_view (kec := kec) tr
    rwa [LTracked.markAll_new h2, LTracked.flagged_node, ← LTracked.markAll_new h2] at this
  have hc := (h.canon (List.mem_of_getElem? hi)).1
  have ha := hu.at
  have huc := ha.canon (hv.canon hc)
  rw [h3, LTracked.markAll_new h2] at ha
  rcases LTracked.subset_minimal P kec _ _ _ _ ha with h | ⟨x, hx⟩ | ⟨b, hb⟩
  · exact .inl h
  · right; left
    cases u with
    | hash a y => exact ⟨a, y, rfl⟩
    | _ => simp [Trie.plain] at hx
  · right; right
    intro J hJ
    by_cases hue : u.plain = .empty
    · have hJ' : Lists J (absL .empty) := by rw [← hue]; exact hJ
      rw [hJ'.nil (by simp), Spec.node]
      decide
    · have hnh : ∀ x, u.plain ≠ .hash x := by
        intro x e; rw [e] at hb; simp [LNode.enc] at hb
      rw [(enc_spec kec u.plain J huc hJ).2.2 hue hnh] at hb
      exact LTracked.raw_small hb

/-- No node of the subset is at `[2, 5]`: its encoding is long, and this is a prefix of no requested key. -/
example (K : Kind) : ∃ t' st,
    createTrieSubset .debug kec0 (caseT K .debug 0) ([[1, 2]].map ofList) (caseS K .debug).state =
      .ok (.ok t', st) ∧
    ∀ q u, t'.NodeAt q u → q <+: [1, 2] ∨ (∃ a x, u = .hash a x) ∨
      ∀ J, Lists J u.contents → (Spec.node kec0 J).length < 32 :=
  have ⟨t', st, he⟩ := caseSubset K .debug
  ⟨t', st, he, fun q u hu =>
    (C29_minimal (caseReached K .debug) (caseGet K .debug (by decide)) (by decide) he hu).imp_left
      fun ⟨k, hk, h⟩ => by
        cases List.mem_singleton.1 hk
        exact h.elim id fun h => absurd h.1 (by decide)⟩

/-! ## C30 -/

/-- The key neither runs into an elided sub-trie nor (with overflow checks) stops inside a run of
shared nibbles. -/
def Markable (P : Profile) (m : KMap) (k : Key) : Prop :=
  (¬ ∃ r, RunsInto m k r) ∧ (P.overflowChecks = true → ¬ StopsInside m k)

theorem get_panic {l : LNode} (hc : l.Canon) {k : Key} {e : Panic} :
    l.get P k = .error e ↔ e = .overflow ∧ P.overflowChecks = true ∧ StopsInside (absL l) k := by
  cases hP : P.overflowChecks with
  | true =>
    rcases get_exact hP l k hc with ⟨h1, h2⟩ | ⟨h1, r, h2, _⟩
    · rw [h2]
      exact ⟨fun h => (by cases h; exact ⟨rfl, rfl, h1⟩), fun h => by rw [h.1]⟩
    · rw [h2]
      exact ⟨fun h => (by cases h), fun h => absurd h.2.2 h1⟩
  | false =>
    obtain ⟨r, h2, _⟩ := get_exact_release hP l k hc
    rw [h2]
    exact ⟨fun h => (by cases h), fun h => by cases h.2.1⟩

/-- C30, with panics: what `create_trie_subset` returns. -/
theorem C30_exact (h : Reached K M P kec s) (hi : s.hs[i]? = some t) {ks : List Key}
    (hk : ∀ k ∈ ks, k.length ≤ 127) :
    match createTrieSubset P kec t (ks.map ofList) s.state with
    | .ok (.ok _, _) => ∀ k ∈ ks, Markable P t.contents k
    | .ok (.error e, _) => ∃ ks₁ k ks₂ r, ks = ks₁ ++ k :: ks₂ ∧
        (∀ k' ∈ ks₁, Markable P t.contents k') ∧ RunsInto t.contents k r ∧
        e = .unexpectedKey (ofList r)
    | .error e => e = .overflow ∧ P.overflowChecks = true ∧ ∃ ks₁ k ks₂, ks = ks₁ ++ k :: ks₂ ∧
        (∀ k' ∈ ks₁, Markable P t.contents k') ∧ StopsInside t.contents k := by
  have hc := (h.canon (List.mem_of_getElem? hi)).1
  have h1 := h.live.subset_exact hi hk
  have h2 := LTracked.markAll_result P ks (LTracked.new t.plain)
  rw [LTracked.node_new] at h2
  have hm : ∀ k, ((¬ ∃ r, RunsInto (absL t.plain) k r) ∧ ∀ e, t.plain.get P k ≠ .error e) →
      Markable P t.contents k := by
    rintro k ⟨g1, g2⟩
    exact ⟨g1, fun hP hs => g2 _ ((get_panic hc).2 ⟨rfl, hP, hs⟩)⟩
  rcases h2 with ⟨t', h2, h3⟩ | ⟨ks₁, k, ks₂, rfl, h3, ⟨r, h4, h5⟩ | ⟨e, h4, h5⟩⟩
  · rw [h2] at h1
    rcases hx : createTrieSubset P kec t (ks.map ofList) s.state with e | ⟨r | r, st⟩
    · rw [hx] at h1; cases h1
    · rw [hx] at h1; simp [Except.map] at h1
    · exact fun k hk => hm k (h3 k hk)
  · rw [h5] at h1
    rcases hx : createTrieSubset P kec t ((ks₁ ++ k :: ks₂).map ofList) s.state with e | ⟨r' | r', st⟩
    · rw [hx] at h1; cases h1
    · rw [hx] at h1
      simp only [Except.map, Except.ok.injEq, Except.error.injEq] at h1
      exact ⟨ks₁, k, ks₂, r, rfl, fun k' hk' => hm k' (h3 k' hk'), h4, h1⟩
    · rw [hx] at h1; simp [Except.map] at h1
  · rw [h5] at h1
    rcases hx : createTrieSubset P kec t ((ks₁ ++ k :: ks₂).map ofList) s.state with e' | ⟨r' | r', st⟩
    · rw [hx] at h1
      simp only [Except.map, Except.error.injEq] at h1
      obtain ⟨g1, g2, g3⟩ := (get_panic hc).1 h4
      exact ⟨h1.trans g1, g2, ks₁, k, ks₂, rfl, fun k' hk' => hm k' (h3 k' hk'), g3⟩
    · rw [hx] at h1; simp [Except.map] at h1
    · rw [hx] at h1; simp [Except.map] at h1

/-- The key `[2, 5, 5]` runs into the hash node of handle 2. -/
example (K : Kind) (P : Profile) : match createTrieSubset P kec0 (caseT K P 2) ([[1, 2], [2, 5, 5]].map ofList)
      (caseS K P).state with
    | .ok (.ok _, _) => ∀ k ∈ ([[1, 2], [2, 5, 5]] : List Key), Markable P (caseT K P 2).contents k
    | .ok (.error e, _) => ∃ ks₁ k ks₂ r, [[1, 2], [2, 5, 5]] = ks₁ ++ k :: ks₂ ∧
        (∀ k' ∈ ks₁, Markable P (caseT K P 2).contents k') ∧ RunsInto (caseT K P 2).contents k r ∧
        e = .unexpectedKey (ofList r)
    | .error e => e = .overflow ∧ P.overflowChecks = true ∧ ∃ ks₁ k ks₂, [[1, 2], [2, 5, 5]] = ks₁ ++ k :: ks₂ ∧
        (∀ k' ∈ ks₁, Markable P (caseT K P 2).contents k') ∧ StopsInside (caseT K P 2).contents k :=
  C30_exact (caseReached K P) (caseGet K P (by decide)) (by decide)

example (K : Kind) (P : Profile) : (match createTrieSubset P kec0 (caseT K P 2) ([[1, 2], [2, 5, 5]].map ofList)
      (caseS K P).state with | .ok (.error e, _) => some e | _ => none) = some (.unexpectedKey (ofList [5, 5])) := by
  obtain ⟨P⟩ := P; cases K <;> cases P <;> decide +kernel

/-- C30 fails for keys that are absent and stop inside an extension: in builds with overflow checks
`create_trie_subset` panics. -/
theorem C30_false_panic : ∀ (K : Kind) (P : Profile) (kec : Bytes → H256), P.overflowChecks = true →
    K.obs P kec [.fromIter [([1, 2, 3, 4], .val [7]), ([1, 2, 3, 5], .val [8])], .subset 0 [[1, 2]]] =
      .error .overflow := by
  intro K ⟨P⟩ kec h; cases P with
  | false => cases h
  | true => cases K <;> kernel_rfl

/-- An absent key is no error; a key that runs into a hash node is. -/
example : ∀ K : Kind, ∀ P : Profile, K.obs P kec0 [.fromIter exEntries, .subset 0 [[1, 2, 1], [5, 5]],
    .subset 1 [[1, 2, 2], [2, 2, 1], [1, 1, 1]]] =
    .ok [.unit, .unit, .err (.unexpectedKey (ofList [2, 1]))] := by
  intro K ⟨P⟩; cases K <;> cases P <;> decide +kernel

/-- C30 as long as no key stops inside an extension: an error is returned exactly if some key runs
into a hash node, and it reports the first such key; absent keys are no errors.  Missing: see
`C30_false_panic`. -/
theorem C30_partial (h : Reached K M P kec s) (hi : s.hs[i]? = some t) {ks : List Key}
    (hk : ∀ k ∈ ks, k.length ≤ 127)
    (hs : P.overflowChecks = true → ∀ k ∈ ks, ¬ StopsInside t.contents k) :
    (∃ t' st, createTrieSubset P kec t (ks.map ofList) s.state = .ok (.ok t', st) ∧
      NoErr t.contents ks) ∨
    (∃ r st, createTrieSubset P kec t (ks.map ofList) s.state =
      .ok (.error (.unexpectedKey (ofList r)), st) ∧ FirstErr t.contents ks r) := by
  have h1 := C30_exact h hi hk
  rcases hx : createTrieSubset P kec t (ks.map ofList) s.state with e | ⟨r | r, st⟩
  · rw [hx] at h1
    obtain ⟨_, h2, ks₁, k, ks₂, rfl, _, h3⟩ := h1
    exact absurd h3 (hs h2 k (by simp))
  · rw [hx] at h1
    obtain ⟨ks₁, k, ks₂, r, rfl, h2, h3, rfl⟩ := h1
    exact .inr ⟨r, st, rfl, ks₁, k, ks₂, rfl, fun k' hk' => (h2 k' hk').1, h3⟩
  · rw [hx] at h1
    exact .inl ⟨r, st, rfl, fun k hk => (h1 k hk).1⟩

/-! ## C31 -/

/-- C31: the order of the keys and repetitions do not matter. -/
theorem C31_set (h : Live K M P kec s) (hi : s.hs[i]? = some t) {ks ks' : List Key}
    (hk : ∀ k ∈ ks, k.length ≤ 127) {t' : Trie K.Ann}
    {st : K.State} (he : createTrieSubset P kec t (ks.map ofList) s.state = .ok (.ok t', st))
    (hset : ∀ k, k ∈ ks ↔ k ∈ ks') :
    ∃ t'' st', createTrieSubset P kec t (ks'.map ofList) s.state = .ok (.ok t'', st') ∧
      t''.beq t' = true := by
  have hk' : ∀ k ∈ ks', k.length ≤ 127 := fun k hk' => hk k ((hset k).2 hk')
  obtain ⟨h1, _, tr, h2, h3⟩ := h.subset_ok hi hk he
  have h4 := LTracked.markAll_congr hset h2
  obtain ⟨t'', st', h5⟩ := h.subset_mk hi hk' h4
  refine ⟨t'', st', h5, ?_⟩
  obtain ⟨g1, _, tr', g2, g3⟩ := h.subset_ok hi hk' h5
  rw [h4] at g2
  cases g2
  rw [Trie.beq_iff_plain (g1.wfKeys (by simp)) (h1.wfKeys (by simp)), g3, h3]
  cases ks with
  | nil =>
    cases ks' with
    | nil => rfl
    | cons k ks' => exact absurd ((hset k).2 (by simp)) (by simp)
  | cons k ks =>
    cases ks' with
    | nil => exact absurd ((hset k).1 (by simp)) (by simp)
    | cons k' ks' => rw [standIn_ne (by simp), standIn_ne (by simp)]

example (K : Kind) (P : Profile) : ∃ t' st t'' st',
    createTrieSubset P kec0 (caseT K P 0) ([[1, 2]].map ofList) (caseS K P).state = .ok (.ok t', st) ∧
    createTrieSubset P kec0 (caseT K P 0) ([[1, 2], [1, 2]].map ofList) (caseS K P).state = .ok (.ok t'', st') ∧
    t''.beq t' = true :=
  have ⟨t', st, he⟩ := caseSubset K P
  have ⟨t'', st', h⟩ := C31_set (ks' := [[1, 2], [1, 2]]) (caseLive K P) (caseGet K P (by decide)) (by decide) he
    (by simp)
  ⟨t', st, t'', st', he, h⟩

/-- C31: taking the same subset again succeeds and changes nothing. -/
theorem C31_idempotent (h : Live K M P kec s) (hi : s.hs[i]? = some t) {ks : List Key}
    (hk : ∀ k ∈ ks, k.length ≤ 127) {t' : Trie K.Ann}
    {st : K.State} (he : createTrieSubset P kec t (ks.map ofList) s.state = .ok (.ok t', st)) :
    ∃ t'' st', createTrieSubset P kec t' (ks.map ofList) st = .ok (.ok t'', st') ∧
      t''.beq t' = true := by
  obtain ⟨h1, h0, tr, h2, h3⟩ := h.subset_ok hi hk he
  have key : ∃ tr', (LTracked.new t'.plain).markAll P ks = .ok (.ok tr') ∧
      tr'.subset kec = t'.plain := by
    by_cases e : standIn (TrieKind.cacheGet t.ann s.state) ks (tr.subset kec) = tr.subset kec
    · obtain ⟨tr', h4, h5⟩ := LTracked.markAll_again (kec := kec) h2
      rw [e] at h3
      exact ⟨tr', by rw [h3]; exact h4, by rw [h3]; exact h5⟩
    · revert e h3
      generalize TrieKind.cacheGet t.ann s.state = cell
      match cell, ks with
      | some x, [] =>
        intro h3 _
        rw [h3]
        refine ⟨.hash x false, rfl, ?_⟩
        rw [LTracked.subset_eq]
        simp [LTracked.away, LTracked.touched, LTracked.node, LNode.enc, standIn]
      | none, [] => intro _ e; exact absurd rfl e
      | _, _ :: _ => intro _ e; exact absurd (standIn_ne (by simp) _) e
  obtain ⟨tr', h4, h5⟩ := key
  obtain ⟨t'', st', h6⟩ := h1.subset_mk (last_get s.hs t') hk h4
  refine ⟨t'', st', h6, ?_⟩
  obtain ⟨g1, _, tr'', g2, g3⟩ := h1.subset_ok (last_get s.hs t') hk h6
  rw [h4] at g2
  cases g2
  have : TrieKind.cacheGet t'.ann st = none := h0
  rw [show TrieKind.cacheGet t'.ann (⟨st, s.hs ++ [t']⟩ : Sys K.Ann K.State).state = none from h0,
    standIn_none] at g3
  rw [Trie.beq_iff_plain (g1.wfKeys (by simp)) (h1.wfKeys (by simp)), g3, h5]

example (K : Kind) (P : Profile) : ∃ t' st t'' st',
    createTrieSubset P kec0 (caseT K P 0) ([[1, 2]].map ofList) (caseS K P).state = .ok (.ok t', st) ∧
    createTrieSubset P kec0 t' ([[1, 2]].map ofList) st = .ok (.ok t'', st') ∧ t''.beq t' = true :=
  have ⟨t', st, he⟩ := caseSubset K P
  have ⟨t'', st', h⟩ := C31_idempotent (caseLive K P) (caseGet K P (by decide)) (by decide) he
  ⟨t', st, t'', st', he, h⟩

example : ∀ K : Kind, ∀ P : Profile, K.obs P kec0 [.fromIter exEntries,
    .subset 0 [[1, 2, 1], [2, 3]], .subset 0 [[2, 3], [1, 2, 1], [2, 3]],
    .subset 1 [[1, 2, 1], [2, 3]], .eq 1 2, .eq 1 3, .eq 0 1] =
    .ok [.unit, .unit, .unit, .unit, .bool true, .bool true, .bool false] := by
  intro K ⟨P⟩; cases K <;> cases P <;> decide +kernel

/-! ## C32 -/

/-- Two lists of keys that share a first nibble. -/
def batchProg : List Cmd :=
  [.fromIter [([1, 1, 1], .val (List.replicate 40 1)), ([1, 2, 1], .val (List.replicate 40 2)),
    ([2, 2, 1], .val (List.replicate 40 3))],
   .subsets 0 [[[1, 1, 1]], [[1, 2, 1]]], .subset 0 [[1, 2, 1]], .eq 2 3, .get 2 [1, 1, 1],
   .get 3 [1, 1, 1]]

/-- C32 fails: the second of two subsets still contains a leaf that was requested for the first
one only. -/
theorem C32_false : ∀ (K : Kind) (P : Profile) (kec : Bytes → H256),
    K.obs P kec batchProg = .ok [.unit, .unit, .unit, .bool false,
      .val (some (List.replicate 40 1)), .val none] := by
  intro K ⟨P⟩ kec; cases K <;> cases P <;> kernel_rfl

/-- The outcome of several subsets (success, error, panic) is the one of a single subset for all
keys. -/
theorem C32_outcome (h : Live K M P kec s) (hi : s.hs[i]? = some t) {kss : List (List Key)}
    (hk : ∀ ks ∈ kss, ∀ k ∈ ks, k.length ≤ 127) :
    (createTrieSubsets P kec t (kss.map fun ks => ks.map ofList) s.state).map
      (fun r => r.1.map fun _ => ()) =
    (createTrieSubset P kec t (kss.flatten.map ofList) s.state).map (fun r => r.1.map fun _ => ()) := by
  have h1 := h.subsets_exact hi hk
  have h2 := h.subset_exact hi (ks := kss.flatten) (fun k hk' => by
    obtain ⟨ks, h1, h2⟩ := List.mem_flatten.1 hk'
    exact hk ks h1 k h2)
  have h3 := LTracked.subsetsL_outcome P kec kss (t := .new t.plain) (u := .new t.plain) rfl
  revert h1 h2 h3
  generalize createTrieSubsets P kec t (kss.map fun ks => ks.map ofList) s.state = x
  generalize createTrieSubset P kec t (kss.flatten.map ofList) s.state = y
  generalize PSys.subsetsL P kec (LTracked.new t.plain) kss = z
  generalize (LTracked.new t.plain).markAll P kss.flatten = w
  rcases x with x | ⟨x | x, st⟩ <;> rcases y with y | ⟨y | y, st⟩ <;>
    rcases z with z | (z | z) <;> rcases w with w | (w | w) <;>
    simp [Except.map] <;> intros <;> simp_all

example (K : Kind) (P : Profile) : (createTrieSubsets P kec0 (caseT K P 2)
      ([[[1, 2]], [[3]], [[2, 5, 5], [1]]].map fun ks => ks.map ofList) (caseS K P).state).map
        (fun r => r.1.map fun _ => ()) =
    (createTrieSubset P kec0 (caseT K P 2) ([[1, 2], [3], [2, 5, 5], [1]].map ofList) (caseS K P).state).map
      (fun r => r.1.map fun _ => ()) :=
  C32_outcome (caseLive K P) (caseGet K P (by decide)) (by decide)

theorem subsetsL_alone {l : LNode} {kss : List (List Key)} {ls : List LNode}
    (h : PSys.subsetsL P kec (LTracked.new l) kss = .ok (.ok ls)) {j : Nat} {ks : List Key}
    (hj : kss[j]? = some ks) : ∃ tr, (LTracked.new l).markAll P ks = .ok (.ok tr) := by
  have h7 := subsetsL_each _ _ _ h
  have hlen := PSys.subsetsL_length _ _ h
  obtain ⟨hj1, rfl⟩ := List.getElem?_eq_some_iff.1 hj
  obtain ⟨t₀, tr, g1, g2, g3⟩ := (List.forall₂_iff_get.1 h7).2 j hj1 (by omega)
  have := LTracked.markAll_outcome P kss[j] g1
  simp only [List.get_eq_getElem] at g2
  rw [g2] at this
  revert this
  rcases (LTracked.new l).markAll P kss[j] with e | (e | tr)
  · intro h; cases h
  · intro h; simp [Except.map] at h
  · intro _; exact ⟨tr, rfl⟩

/-- Each of several subsets contains at least what the subset made alone contains, which is a partial
view of it. -/
theorem C32_more (h : Live K M P kec s) (hi : s.hs[i]? = some t) {kss : List (List Key)}
    (hk : ∀ ks ∈ kss, ∀ k ∈ ks, k.length ≤ 127)
    {ts : List (Trie K.Ann)} {st : K.State}
    (he : createTrieSubsets P kec t (kss.map fun ks => ks.map ofList) s.state = .ok (.ok ts, st))
    {j : Nat} {ks : List Key} {t' : Trie K.Ann} (hj : kss[j]? = some ks) (hj' : ts[j]? = some t')
    (hf : ks = [] → s.FreshAt kec i) :
    ∃ u st', createTrieSubset P kec t (ks.map ofList) s.state = .ok (.ok u, st') ∧
      u.ViewOf P kec t' := by
  have hksk := hk ks (List.mem_of_getElem? hj)
  obtain ⟨h1, _, ls, h2, _⟩ := h.subsets_ok hi hk he
  obtain ⟨l, hl, hl1, _⟩ := h.subsets_get hi hk he hj hj' h2
  have hl1 := hl1 hf
  have h2' := h2
  rw [LTracked.new_eq_batch P] at h2'
  have h3 := LTracked.subsetsL_batch _ _ _ _ _ _ h2'
  have hj'' := hl
  rw [h3] at hj''
  obtain ⟨ks', h4, h5⟩ := LTracked.batches_get _ _ _ _ _ _ _ hj''
  rw [hj] at h4
  cases h4
  have h6 := subsetsL_alone h2 hj
  obtain ⟨tr, h6⟩ := h6
  obtain ⟨u, st', h7⟩ := h.subset_mk hi hksk h6
  refine ⟨u, st', h7, ?_⟩
  obtain ⟨g1, _, tr', g2, g3⟩ := h.subset_ok hi hksk h7
  rw [h6] at g2
  cases g2
  rw [standIn_fresh hi hf h6] at g3
  rw [viewOf_iff (g1.plain (by simp)) (h1.plain (List.mem_append_right _ (List.mem_of_getElem? hj'))),
    g3, hl1, h5, LTracked.markAll_new h6]
  exact (LTracked.batch_mono P _ _ _).view

example (K : Kind) (P : Profile) : ∃ ts st, createTrieSubsets P kec0 (caseT K P 0)
      (caseKss.map fun ks => ks.map ofList) (caseS K P).state = .ok (.ok ts, st) ∧
    ∀ t', ts[1]? = some t' → ∃ u st', createTrieSubset P kec0 (caseT K P 0) ([[2, 5, 6, 7]].map ofList)
      (caseS K P).state = .ok (.ok u, st') ∧ u.ViewOf P kec0 t' :=
  have ⟨ts, st, he⟩ := caseSubsets K P
  ⟨ts, st, he, fun _ hj => C32_more (caseLive K P) (caseGet K P (by decide)) (by decide) he (j := 1) rfl hj (fun h => by cases h)⟩

/-- C32 for the first list, and for all non-empty lists if the root of the trie is not an extension
and keys of different lists begin with different nibbles.  Missing: see `C32_false`; what is returned
otherwise is described by `C32_more`. -/
theorem C32_partial (h : Live K M P kec s) (hi : s.hs[i]? = some t) {kss : List (List Key)}
    (hk : ∀ ks ∈ kss, ∀ k ∈ ks, k.length ≤ 127)
    {ts : List (Trie K.Ann)} {st : K.State}
    (he : createTrieSubsets P kec t (kss.map fun ks => ks.map ofList) s.state = .ok (.ok ts, st))
    {j : Nat} {ks : List Key} {t' : Trie K.Ann} (hj : kss[j]? = some ks) (hj' : ts[j]? = some t')
    (hapart : j = 0 ∨ ((∀ a n c, t ≠ .ext a n c) ∧ ks ≠ [] ∧
      ∀ ks' ∈ kss.take j, ∀ d k k', d :: k ∈ ks → d :: k' ∉ ks')) :
    ∃ u st', createTrieSubset P kec t (ks.map ofList) s.state = .ok (.ok u, st') ∧
      u.beq t' = true := by
  have hksk := hk ks (List.mem_of_getElem? hj)
  obtain ⟨k1, _, ls, h2, _⟩ := h.subsets_ok hi hk he
  obtain ⟨l, hl, hl1, hl2⟩ := h.subsets_get hi hk he hj hj' h2
  have hl1 : t'.plain = standIn (TrieKind.cacheGet t.ann s.state) ks l := by
    rcases hapart with e | ⟨_, e, _⟩
    · exact hl2 e
    · rw [standIn_ne e]; exact hl1 fun e' => absurd e' e
  have h6 := subsetsL_alone h2 hj
  obtain ⟨tr, h6⟩ := h6
  obtain ⟨u, st', h1⟩ := h.subset_mk hi hksk h6
  refine ⟨u, st', h1, ?_⟩
  obtain ⟨g1, _, tr', g2, g3⟩ := h.subset_ok hi hksk h1
  rw [LTracked.new_eq_batch P] at h2
  have h3 := LTracked.subsetsL_batch _ _ _ _ _ _ h2
  have hj'' := hl
  rw [h3] at hj''
  obtain ⟨ks', h4, h5⟩ := LTracked.batches_get _ _ _ _ _ _ _ hj''
  rw [hj] at h4
  cases h4
  rw [Trie.beq_iff_plain (g1.wfKeys (by simp))
    (k1.wfKeys (List.mem_append_right _ (List.mem_of_getElem? hj'))), g3, hl1]
  congr 1
  rw [h5, LTracked.markAll_new g2]
  rcases hapart with rfl | ⟨a1, a2, a3⟩
  · simp [LTracked.batch_nil]
  · refine (LTracked.batch_apart ?_ a2 ?_).symm
    · intro n c e
      cases t with
      | ext a m c' => exact a1 a m c' rfl
      | _ => simp [Trie.plain] at e
    · intro d
      by_contra hcon
      rw [not_or] at hcon
      obtain ⟨x, hx⟩ := List.exists_mem_of_ne_nil _ hcon.1
      obtain ⟨y, hy⟩ := List.exists_mem_of_ne_nil _ hcon.2
      rw [mem_down] at hx hy
      rw [List.nil_append] at hx
      obtain ⟨l, hl1, hl2⟩ := List.mem_flatten.1 hx
      exact a3 l hl1 d y x hy hl2

/-- The keys of the two subsets begin with different nibbles, and the root is a branch. -/
example (K : Kind) (P : Profile) : ∃ ts st, createTrieSubsets P kec0 (caseT K P 0)
      (caseKss.map fun ks => ks.map ofList) (caseS K P).state = .ok (.ok ts, st) ∧
    ∀ t', ts[1]? = some t' → ∃ u st', createTrieSubset P kec0 (caseT K P 0) ([[2, 5, 6, 7]].map ofList)
      (caseS K P).state = .ok (.ok u, st') ∧ u.beq t' = true := by
  obtain ⟨ts, st, he⟩ := caseSubsets K P
  refine ⟨ts, st, he, fun _ hj => C32_partial (caseLive K P) (caseGet K P (by decide)) (by decide) he (j := 1) rfl hj
    (.inr ⟨fun a n c h => ?_, by decide, ?_⟩)⟩
  · have h' : (match caseT K P 0 with | .ext _ _ _ => false | _ => true) = true := by
      obtain ⟨P⟩ := P; cases K <;> cases P <;> decide +kernel
    rw [h] at h'; cases h'
  · intro ks' hks d k k' h1 h2
    cases List.mem_singleton.1 h1
    simp [caseKss] at hks
    subst hks
    simp at h2

/-- Lists that begin with different nibbles. -/
example : ∀ K : Kind, ∀ P : Profile, K.obs P kec0 [.fromIter exEntries,
    .subsets 0 [[[1, 1, 1]], [[2, 3], [3, 3]]], .subset 0 [[2, 3], [3, 3]], .eq 2 3, .eq 1 3] =
    .ok [.unit, .unit, .unit, .bool true, .bool false] := by
  intro K ⟨P⟩; cases K <;> cases P <;> decide +kernel

/-! ## C33 -/

/-- C33: what can be inserted into a partial trie can be inserted into the full trie, and the result
is again a partial view with the same root hash. -/
theorem C33_insert [M.Safe] {K' : Kind} {M' : Mode} [M'.Safe] {P' : Profile} {s' : Sys K'.Ann K'.State} {i' : Nat}
    {p : Trie K'.Ann} (h : Live K M P kec s) (hi : s.hs[i]? = some t) (h' : Live K' M' P' kec s')
    (hi' : s'.hs[i']? = some p) (hv : p.ViewOf P kec t) {k : Key} (hk : k.length ≤ 127)
    {v : ValOrHash} {p₁ : Trie K'.Ann} {st' : K'.State}
    (he : p.insert P' (ofList k) v s'.state = .ok (p₁, st')) :
    ∃ t₁ st, t.insert P (ofList k) v s.state = .ok (t₁, st) ∧ p₁.ViewOf P kec t₁ ∧
      (p₁.rootHash P' kec st').map (·.1) = (t₁.rootHash P kec st).map (·.1) := by
  have h1 := h'.insert hi' hk v
  rw [he] at h1
  rw [viewOf_iff (h'.plain (List.mem_of_getElem? hi')) (h.plain (List.mem_of_getElem? hi))] at hv
  obtain ⟨l, h2, h3⟩ := hv.insert h1.symm
  have h4 := h.insert hi hk v
  rw [h2] at h4
  revert h4
  cases hx : t.insert P (ofList k) v s.state with
  | error e => intro h; cases h
  | ok r =>
    obtain ⟨t₁, st⟩ := r
    intro h4
    simp only [Except.map, Except.ok.injEq] at h4
    subst h4
    have l1 : Live K M P kec ⟨st, s.hs.set i t₁⟩ := by
      refine .step (c := .insert i k v) (o := .unit) h hk (by cases K <;> cases M <;> trivial) ?_
      simp only [Sys.exec, exec_on hi, hx, R_bind_ok, R_pure]
    have l2 : Live K' M' P' kec ⟨st', s'.hs.set i' p₁⟩ := by
      refine .step (c := .insert i' k v) (o := .unit) h' hk (by cases K' <;> cases M' <;> trivial) ?_
      simp only [Sys.exec, exec_on hi', he, R_bind_ok, R_pure]
    have g1 := Sys.set_get hi t₁
    have g2 := Sys.set_get hi' p₁
    have hv' := (viewOf_iff (P := P) (l2.plain (List.mem_of_getElem? g2))
      (l1.plain (List.mem_of_getElem? g1))).2 h3
    exact ⟨t₁, st, rfl, hv', C26_live l1 g1 l2 g2 hv'⟩

/-- An insertion into the subset under a requested key. -/
example (K : Kind) (P : Profile) {p₁ : Trie K.Ann} {st' : K.State}
    (he : (caseT K P 2).insert P (ofList [1, 2]) (.val [77]) (caseS K P).state = .ok (p₁, st')) :
    ∃ t₁ st, (caseT K P 0).insert P (ofList [1, 2]) (.val [77]) (caseS K P).state = .ok (t₁, st) ∧
      p₁.ViewOf P kec0 t₁ ∧ (p₁.rootHash P kec0 st').map (·.1) = (t₁.rootHash P kec0 st).map (·.1) :=
  C33_insert (caseLive K P) (caseGet K P (by decide)) (caseLive K P) (caseGet K P (by decide)) (caseView K P) (by decide) he

/-- The insertions of some entries into the same trie. -/
def inserts (i : Nat) (xs : List (Key × ValOrHash)) : List Cmd := xs.map fun x => .insert i x.1 x.2

/-- C33 for any number of insertions. -/
theorem C33_history [M.Safe] {K' : Kind} {M' : Mode} [M'.Safe] {P' : Profile} (xs : List (Key × ValOrHash)) :
    ∀ {s : Sys K.Ann K.State} {s' : Sys K'.Ann K'.State} {i i' : Nat} {t : Trie K.Ann}
    {p : Trie K'.Ann}, Live K M P kec s → s.hs[i]? = some t → Live K' M' P' kec s' →
    s'.hs[i']? = some p → p.ViewOf P kec t → (∀ x ∈ xs, x.1.length ≤ 127) →
    ∀ {r' : Sys K'.Ann K'.State} {os' : List Obs}, s'.run P' kec (inserts i' xs) = .ok (r', os') →
    ∃ r os t₁ p₁, s.run P kec (inserts i xs) = .ok (r, os) ∧ r.hs[i]? = some t₁ ∧
      r'.hs[i']? = some p₁ ∧ p₁.ViewOf P kec t₁ ∧
      (p₁.rootHash P' kec r'.state).map (·.1) = (t₁.rootHash P kec r.state).map (·.1) := by
  induction xs with
  | nil =>
    intro s s' i i' t p h hi h' hi' hv _ r' os' he
    simp only [inserts, List.map_nil, Sys.run, Except.ok.injEq, Prod.mk.injEq] at he
    obtain ⟨rfl, _⟩ := he
    exact ⟨s, [], t, p, rfl, hi, hi', hv, C26_live h hi h' hi' hv⟩
  | cons x xs ih =>
    intro s s' i i' t p h hi h' hi' hv hx r' os' he
    simp only [inserts, List.map_cons, Sys.run, R_bind_eq_ok] at he
    obtain ⟨⟨s₁, o⟩, h1, ⟨s₂, os⟩, h2, h3⟩ := he
    cases h3
    simp only [Sys.exec, exec_on hi', R_bind_eq_ok] at h1
    obtain ⟨⟨p₁, st'⟩, h1, h4⟩ := h1
    cases h4
    have hxk := hx x (by simp)
    obtain ⟨t₁, st, g1, g2, _⟩ := C33_insert h hi h' hi' hv hxk h1
    have e1 : s.exec P kec (.insert i x.1 x.2) = .ok (⟨st, s.hs.set i t₁⟩, .unit) := by
      simp only [Sys.exec, exec_on hi, g1, R_bind_ok, R_pure]
    have e2 : s'.exec P' kec (.insert i' x.1 x.2) = .ok (⟨st', s'.hs.set i' p₁⟩, .unit) := by
      simp only [Sys.exec, exec_on hi', h1, R_bind_ok, R_pure]
    obtain ⟨r, os₁, t₂, p₂, k1, k2⟩ := ih (.step h (c := .insert i x.1 x.2) hxk
      (by cases K <;> cases M <;> trivial) e1) (Sys.set_get hi t₁)
      (.step h' (c := .insert i' x.1 x.2) hxk (by cases K' <;> cases M' <;> trivial) e2)
      (Sys.set_get hi' p₁) g2 (fun y hy => hx y (by simp [hy])) h2
    refine ⟨r, .unit :: os₁, t₂, p₂, ?_, k2⟩
    simp only [inserts, List.map_cons, Sys.run, e1, R_bind_ok]
    rw [show List.map (fun x : Key × ValOrHash => Cmd.insert i x.1 x.2) xs = inserts i xs from rfl, k1]
    rfl

example : ∀ K : Kind, ∀ P : Profile, K.obs P kec0 [.fromIter exEntries, .subset 0 [[1, 2, 1]],
    .insert 0 [1, 2, 5] (.val [6]), .insert 1 [1, 2, 5] (.val [6]), .insert 0 [3] (.val [6]),
    .insert 1 [3] (.val [6]), .hash 0, .hash 1, .eq 0 1] =
    .ok [.unit, .unit, .unit, .unit, .unit, .unit, .root (Vector.replicate 32 85),
      .root (Vector.replicate 32 85), .bool false] := by
  intro K ⟨P⟩; cases K <;> cases P <;> decide +kernel

/-! ## C34 -/

/-- A branch with two leaves as children, one of them replaced by its hash in handle 1; the other one
is deleted from both tries. -/
def collapseProg : List Cmd :=
  [.fromIter [([1, 1], .val [7]), ([2, 2], .val (List.replicate 40 8))], .subset 0 [[1, 1]],
   .delete 0 [1, 1], .delete 1 [1, 1], .hash 0, .hash 1]

/-- C34 fails, with any hash function: the root hashes are those of different strings, because a branch is
collapsed onto a hash node that stands for a leaf. -/
theorem C34_false : ∀ (K : Kind) (P : Profile) (kec : Bytes → H256), ∃ a b : Bytes, a ≠ b ∧
    K.obs P kec collapseProg = .ok [.unit, .unit, .val (some [7]), .val (some [7]), .root (kec a),
      .root (kec b)] := by
  intro K ⟨P⟩
  refine spelled fun f => ⟨236 :: 130 :: 32 :: 34 :: 168 :: List.replicate 40 8,
    226 :: 18 :: 160 :: (spell (f (234 :: 50 :: 168 :: List.replicate 40 8))).toList, ?_, ?_⟩
  · exact fun h => absurd (List.head_eq_of_cons_eq h) (by decide)
  · cases K <;> cases P <;> kernel_rfl

theorem strands_plain {α β : Type} {p : Trie α} {t : Trie β} {k : Key} :
    LastHash p.plain t.plain k ↔ p.Strands t k := by
  constructor
  · rintro ⟨q, d, j, r, cs, v, x, u, w, rfl, h1, h2, h3, h3', h4, h5, h6⟩
    obtain ⟨b, h7, h8⟩ := nodeAt_of_at h1
    obtain ⟨c, h9, h10⟩ := nodeAt_of_at h5
    cases b with
    | branch a cs' v' =>
      simp only [Trie.plain, LNode.branch.injEq] at h8
      obtain ⟨rfl, rfl⟩ := h8
      have hb : ∃ b, cs' j = .hash b x := by
        cases hj : cs' j <;> simp [hj, Trie.plain] at h4
        subst h4; exact ⟨_, rfl⟩
      obtain ⟨b, hb⟩ := hb
      have hd : ∃ c n, cs' d = .leaf c n w ∧ n.toList = r := by
        cases hj : cs' d <;> simp [hj, Trie.plain] at h3'
        obtain ⟨h, rfl⟩ := h3'; exact ⟨_, _, rfl, h⟩
      obtain ⟨e, n, hd, hn⟩ := hd
      refine ⟨q, d, j, r, a, cs', v', b, x, c, e, n, w, rfl, h7, h2, ?_, hd, hn, hb, h9, ?_⟩
      · intro l hl
        refine h3 l fun e => ?_
        cases hc : cs' l <;> simp [hc, Trie.plain] at e
        exact hl _ hc
      · subst h10
        cases c <;> simp_all [Trie.plain, LNode.LeafOrExt, Trie.LeafOrExt]
    | _ => simp [Trie.plain] at h8
  · rintro ⟨q, d, j, r, a, cs, v, b, x, u, c, n, w, rfl, h1, h2, h3, h3', rfl, h4, h5, h6⟩
    refine ⟨q, d, j, _, _, v, x, u.plain, w, rfl, h1.at, h2, ?_, by rw [h3']; rfl, by rw [h4]; rfl,
      h5.at, ?_⟩
    · intro l hl
      refine h3 l fun b e => hl ?_
      rw [e]; rfl
    · cases u <;> simp_all [Trie.plain, LNode.LeafOrExt, Trie.LeafOrExt]

/-- C34 unless the deletion collapses a branch onto a hash node that stands for a leaf or an
extension.  Missing: this case, see `C34_false`; and `C34_exact`, which covers it. -/
theorem C34_partial [M.Safe] {K' : Kind} {M' : Mode} [M'.Safe] {P' : Profile} {s' : Sys K'.Ann K'.State} {i' : Nat}
    {p : Trie K'.Ann} (h : Live K M P kec s) (hi : s.hs[i]? = some t) (h' : Live K' M' P' kec s')
    (hi' : s'.hs[i']? = some p) (hv : p.ViewOf P kec t) {k : Key} (hk : k.length ≤ 127)
    (hl : ¬ p.Strands t k) {p₁ : Trie K'.Ann} {o : Option Bytes} {st' : K'.State}
    (he : p.delete P' (ofList k) s'.state = .ok ((p₁, o), st')) :
    ∃ t₁ st, t.delete P (ofList k) s.state = .ok ((t₁, o), st) ∧ p₁.ViewOf P kec t₁ ∧
      (p₁.rootHash P' kec st').map (·.1) = (t₁.rootHash P kec st).map (·.1) := by
  have h1 := h'.delete hi' hk
  rw [he] at h1
  rw [viewOf_iff (h'.plain (List.mem_of_getElem? hi')) (h.plain (List.mem_of_getElem? hi))] at hv
  obtain ⟨l, h2, h3⟩ := hv.deleteA (fun e => hl (strands_plain.1 e)) h1.symm
  have h4 := h.delete hi hk
  rw [h2] at h4
  revert h4
  cases hx : t.delete P (ofList k) s.state with
  | error e => intro h; cases h
  | ok r =>
    obtain ⟨⟨t₁, o'⟩, st⟩ := r
    intro h4
    simp only [Except.map, Except.ok.injEq, Prod.mk.injEq] at h4
    obtain ⟨rfl, rfl⟩ := h4
    have l1 : Live K M P kec ⟨st, s.hs.set i t₁⟩ := by
      refine .step (c := .delete i k) (o := .val o') h hk (by cases K <;> cases M <;> trivial) ?_
      simp only [Sys.exec, exec_on hi, hx, R_bind_ok, R_pure]
    have l2 : Live K' M' P' kec ⟨st', s'.hs.set i' p₁⟩ := by
      refine .step (c := .delete i' k) (o := .val o') h' hk (by cases K' <;> cases M' <;> trivial) ?_
      simp only [Sys.exec, exec_on hi', he, R_bind_ok, R_pure]
    have g1 := Sys.set_get hi t₁
    have g2 := Sys.set_get hi' p₁
    have hv' := (viewOf_iff (P := P) (l2.plain (List.mem_of_getElem? g2))
      (l1.plain (List.mem_of_getElem? g1))).2 h3
    exact ⟨t₁, st, rfl, hv', C26_live l1 g1 l2 g2 hv'⟩

/-- Handle 2 is such a view of handle 0 and no deletion strands its hash node, since other children are left. -/
example : ∀ K : Kind, ∀ P : Profile, K.obs P kec0 (caseProg ++ [.delete 0 [1, 2], .delete 2 [1, 2], .hash 0, .hash 2]) =
    .ok [.unit, .root (Vector.replicate 32 74), .unit, .unit, .unit, .val (some [8]), .val (some [8]),
      .root (Vector.replicate 32 72), .root (Vector.replicate 32 72)] := by
  intro K ⟨P⟩; cases K <;> cases P <;> decide +kernel

/-- A deletion that collapses nothing. -/
example : ∀ K : Kind, ∀ P : Profile, K.obs P kec0 [.fromIter exEntries,
    .insert 0 [3, 3, 3] (.val [6]), .subset 0 [[3, 3, 3]], .delete 0 [3, 3, 3],
    .delete 1 [3, 3, 3], .hash 0, .hash 1, .eq 0 1] =
    .ok [.unit, .unit, .unit, .val (some [6]), .val (some [6]), .root (Vector.replicate 32 83),
      .root (Vector.replicate 32 83), .bool false] := by
  intro K ⟨P⟩; cases K <;> cases P <;> decide +kernel

end EthTrie
