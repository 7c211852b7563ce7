import Verif.Cost.Size
import Verif.Props.Alloc
import Verif.Props.Contents
import Verif.Spec.Nodes

/-!
# Properties C62 and C63: how large subsets and tries are
-/

namespace EthTrie

open Nibbles LNode Spec

variable {P : Profile} {kec : Bytes → H256} {K : Kind} {M : Mode} {s : Sys K.Ann K.State} {i : Nat}
  {t : Trie K.Ann}

theorem length_nodes {α : Type} : ∀ (t : Trie α) (d : Nat), (t.nodes d).length = t.nodeCount := by
  intro t
  induction t with
  | branch a cs v ih =>
    intro d
    simp only [Trie.nodes, Trie.nodeCount, List.length_cons, List.length_flatten, List.map_map,
      Function.comp_def, ih, sum16]
    omega
  | ext a n c ih => intro d; simp only [Trie.nodes, Trie.nodeCount, List.length_cons, ih]; omega
  | _ => intro d; rfl

/-- C62: a subset of a trie has at most 18 nodes and 288 for each nibble of the keys and each key, however
large the trie is; and no more than the trie.  (Every node on the path of a key may be a branch, and each
of its 16 children may have 18 nodes that are kept because their encoding is short.) -/
theorem C62_subset (h : Live K M P kec s) (hi : s.hs[i]? = some t) {ks : List Key}
    (hk : ∀ k ∈ ks, k.length ≤ 127) (hf : ks = [] → s.FreshAt kec i) {p : Trie K.Ann} {st : K.State}
    (hp : createTrieSubset P kec t (ks.map ofList) s.state = .ok (.ok p, st)) :
    (p.nodes 0).length ≤ 18 + 288 * (ks.map fun k => k.length + 1).sum ∧
      (p.nodes 0).length ≤ (t.nodes 0).length := by
  rw [length_nodes, length_nodes]
  constructor
  · have h1 := h.subset_fresh hi hk hf
    rw [hp] at h1
    cases hm : (LTracked.new t.plain).markAll P ks with
    | error e => rw [hm] at h1; simp [Except.map] at h1
    | ok r =>
      cases r with
      | error e => rw [hm] at h1; simp [Except.map] at h1
      | ok tr =>
        rw [hm] at h1
        simp only [Except.map, Except.ok.injEq] at h1
        rw [LTracked.markAll_new hm] at h1
        rw [← nodeCount_plain, h1]
        exact (subset_count _ _ (h.shape (List.mem_of_getElem? hi)).2).1
  · have h1 := (exact_subset (P := P) (kec := kec) t (ks.map ofList)).run hp p rfl
    rw [← h1]
    exact (made_subset t (ks.map ofList)).allocs _

example (K : Kind) (P : Profile) : ∃ p st,
    createTrieSubset P kec0 (caseT K P 0) ([[1, 2]].map ofList) (caseS K P).state = .ok (.ok p, st) ∧
    (p.nodes 0).length ≤ 882 ∧ (p.nodes 0).length ≤ ((caseT K P 0).nodes 0).length :=
  have ⟨p, st, he⟩ := caseSubset K P
  ⟨p, st, he, C62_subset (caseLive K P) (caseGet K P (by decide)) (by decide) (fun h => by cases h) he⟩

/-- C62: the same for `create_trie_subsets`, where all keys up to the list count (C32 says why the earlier
ones do, too). -/
theorem C62_subsets (h : Live K M P kec s) (hi : s.hs[i]? = some t) {kss : List (List Key)}
    (hk : ∀ ks ∈ kss, ∀ k ∈ ks, k.length ≤ 127) (hf : [] ∈ kss → s.FreshAt kec i) {ps : List (Trie K.Ann)}
    {st : K.State}
    (hp : createTrieSubsets P kec t (kss.map fun ks => ks.map ofList) s.state = .ok (.ok ps, st)) {n : Nat}
    {p : Trie K.Ann} (hn : ps[n]? = some p) :
    (p.nodes 0).length ≤ 18 + 288 * ((kss.take (n + 1)).flatten.map fun k => k.length + 1).sum := by
  rw [length_nodes]
  have h1 := h.subsets_fresh hi hk hf
  rw [hp] at h1
  cases hm : PSys.subsetsL P kec (LTracked.new t.plain) kss with
  | error e => rw [hm] at h1; simp [Except.map] at h1
  | ok r =>
    cases r with
    | error e => rw [hm] at h1; simp [Except.map] at h1
    | ok ls =>
      rw [hm] at h1
      simp only [Except.map, Except.ok.injEq] at h1
      rw [LTracked.new_eq_batch P] at hm
      have e := LTracked.subsetsL_batch P kec _ _ _ _ hm
      have hx := (h.shape (List.mem_of_getElem? hi)).2
      have key : ∀ (kss : List (List Key)) (prev : List Key) (n : Nat) (l : LNode),
          (LTracked.batches P kec t.plain prev kss)[n]? = some l →
          l.nodeCount ≤ 18 + 288 * keyLoad (prev ++ (kss.take (n + 1)).flatten) := by
        intro kss
        induction kss with
        | nil => intro prev n l h; simp [LTracked.batches] at h
        | cons ks kss ih =>
          intro prev n l h
          cases n with
          | zero =>
            simp only [LTracked.batches, List.getElem?_cons_zero, Option.some.injEq] at h
            subst h
            simpa using batch_count t.plain prev ks hx
          | succ n =>
            simp only [LTracked.batches, List.getElem?_cons_succ] at h
            have := ih _ n l h
            simpa [List.append_assoc] using this
      have := key kss [] n p.plain (by rw [← e, ← h1, List.getElem?_map, hn]; rfl)
      rw [nodeCount_plain] at this
      exact this

/-- C62: all nodes of a subset are new; `create_trie_subset` makes no others. -/
theorem C62_new (t : Trie K.Ann) (ks : List Nibbles) (σ : K.State) {p : Trie K.Ann} {st : K.State}
    (hp : createTrieSubset P kec t ks σ = .ok (.ok p, st)) :
    (createTrieSubset P kec t ks).allocs σ = (p.nodes 0).length := by
  rw [length_nodes]
  exact (exact_subset (P := P) (kec := kec) t ks).run hp p rfl

/-- C63: a canonical trie (as all tries of `Reached` states are) with `n` entries, hash nodes included, has
at most `18 n - 16` nodes, empty ones included. -/
theorem C63_size (h : Live K M P kec s) (hi : s.hs[i]? = some t) (hc : t.Canonical) {J : List (Nibbles × ValOrHash)}
    (hJ : t.items P = .ok J) (hne : J ≠ []) : (t.nodes 0).length ≤ 18 * J.length - 16 := by
  rw [h.items_ok hi hJ, Except.ok.injEq] at hJ
  have hl : t.plain.entryCount = J.length := by
    rw [← plain_items_length t.plain [], ← hJ]
    simp [packEntries, packItems]
  have hpos : 0 < J.length := List.length_pos_iff.2 hne
  have hcan : t.plain.Canon := plain_of_canonical t hc
  have := (count_entries t.plain hcan (fun e => by rw [e] at hl; exact absurd hl (Nat.ne_of_lt hpos))).1
  rw [length_nodes, ← nodeCount_plain]
  omega

example (K : Kind) (P : Profile) {J : List (Nibbles × ValOrHash)} (hJ : (caseT K P 0).items P = .ok J) (hne : J ≠ []) :
    ((caseT K P 0).nodes 0).length ≤ 18 * J.length - 16 :=
  C63_size (caseLive K P) (caseGet K P (by decide)) (caseCanonical K P _ (by decide)) hJ hne

example (K : Kind) (P : Profile) : ((caseT K P 0).items P).map List.length = .ok 7 ∧
    ((caseT K P 0).nodes 0).length = 66 := by
  obtain ⟨P⟩ := P; cases K <;> cases P <;> decide +kernel

/-- C63: a canonical trie without entries is one empty node. -/
theorem C63_empty (h : Live K M P kec s) (hi : s.hs[i]? = some t) (hc : t.Canonical)
    (hJ : t.items P = .ok []) : (t.nodes 0).length = 1 := by
  rw [h.items_ok hi hJ, Except.ok.injEq] at hJ
  have hl : t.plain.entryCount = 0 := by
    rw [← plain_items_length t.plain []]
    simpa [packEntries, packItems] using hJ
  have hcan : t.plain.Canon := plain_of_canonical t hc
  by_cases he : t.plain = .empty
  · rw [length_nodes, ← nodeCount_plain, he]
    rfl
  · have := (count_entries t.plain hcan he).1
    omega

theorem nodes_depth {α : Type} (t : Trie α) : ∀ d b : Nat, t.plain.Bound b → t.plain.ExtOK →
    ∀ x ∈ t.nodes d, x.2 ≤ d + b := by
  induction t with
  | branch a cs v ih =>
    intro d b hb hx x hx'
    rcases List.mem_cons.1 hx' with rfl | hx'
    · exact Nat.le_add_right _ _
    · obtain ⟨l, hl, hx'⟩ := List.mem_flatten.1 hx'
      obtain ⟨j, -, rfl⟩ := List.mem_map.1 hl
      have := ih j (d + 1) (b - 1) (hb.2 j) (hx j) x hx'
      have := hb.1
      omega
  | ext a n c ih =>
    intro d b hb hx x hx'
    rcases List.mem_cons.1 hx' with rfl | hx'
    · exact Nat.le_add_right _ _
    · have h1 := ih (d + 1) _ hb.2 hx.2.2 x hx'
      have h2 := hb.1
      have h3 : n.toList.length ≠ 0 := fun e => hx.1 (List.length_eq_zero_iff.1 e)
      omega
  | _ =>
    intro d b _ _ x hx
    cases List.mem_singleton.1 hx
    exact Nat.le_add_right _ _

/-- C63: no node of a trie is deeper than 127, in any state. -/
theorem C63_depth (h : Live K M P kec s) (ht : t ∈ s.hs) : ∀ x ∈ t.nodes 0, x.2 ≤ 127 := by
  intro x hx
  have := nodes_depth t 0 127 (h.shape ht).1 (h.shape ht).2 x hx
  omega

example (K : Kind) (P : Profile) : ∀ x ∈ (caseT K P 0).nodes 0, x.2 ≤ 127 :=
  C63_depth (caseLive K P) (caseMem K P (by decide))

/-- C63: no node of a canonical trie is deeper than the longest key has nibbles. -/
theorem C63_depth_canonical (h : Live K M P kec s) (ht : t ∈ s.hs) (hc : t.Canonical) {b : Nat}
    (hb : ∀ k, t.contents k ≠ none → k.length ≤ b) : ∀ x ∈ t.nodes 0, x.2 ≤ b := by
  intro x hx
  have := nodes_depth t 0 b ((plain_of_canonical t hc).bound hb) (h.shape ht).2 x hx
  omega

/-! ## Examples -/

/-- A trie with 80 entries. -/
def sizeProg : List Cmd :=
  [.fromIter ((List.range 80).map fun n : Nat =>
    ([Fin.ofNat 16 (n / 20), Fin.ofNat 16 (n / 2 % 10), Fin.ofNat 16 (n % 2)],
      .val (List.replicate 40 n.toUInt8)))]

/-- Subsets of a trie with 721 nodes; for the first one `C62_subset` allows 594. -/
example : (Kind.hashed.runC .debug kec0 (sizeProg ++ [.subset 0 [[0]], .subset 0 [],
    .subsets 0 [[[1, 1, 1]]]])).1.hs.map (fun t => (t.nodes 0).length) = [721, 33, 1, 49] := by
  decide +kernel

/-- The bound of `C63_size` is reached: an extension, a branch with two extensions and 14 empty children,
and two hash nodes. -/
example : ∀ (K : Kind) (P : Profile), (K.runC P kec0 [.fromIter [([1, 2, 3], .hash (kec0 [])),
    ([1, 3, 3], .hash (kec0 [1]))]]).1.hs.map (fun t => (t.nodes 0).length) = [18 * 2 - 16] := by
  intro K ⟨P⟩; cases K <;> cases P <;> decide +kernel

/-- Four nibbles of a path can be four nodes. -/
example : ∀ (K : Kind) (P : Profile), (K.runC P kec0 [.fromIter [([0, 0, 0, 0], .val [1]), ([0, 0, 0, 1], .val [1]),
    ([0, 0, 1], .val [1]), ([0, 1], .val [1]), ([1], .val [1])]]).1.hs.map
    (fun t => ((t.nodes 0).map (·.2)).foldl max 0) = [4] := by
  intro K ⟨P⟩; cases K <;> cases P <;> decide +kernel

/-- A trie that is not canonical can have more nodes (so `C63_size` needs its hypothesis): here 18 for one
entry, where it allows 2. -/
example : ∀ (K : Kind) (P : Profile), (K.runC P kec0 [.fromIter [([1], .val [1]), ([1, 2], .val [2])],
    .delete 0 [1]]).1.hs.map (fun t => ((t.nodes 0).length, t.items P)) =
    [(18, .ok (packEntries [([1, 2], .val [2])]))] := by
  intro K ⟨P⟩; cases K <;> cases P <;> decide +kernel

end EthTrie
