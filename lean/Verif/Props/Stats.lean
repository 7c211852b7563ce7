import Verif.Debug.Stats
import Verif.Spec.Nodes
import Verif.Props.Subsets

/-!
# Properties C39 and C51: statistics of tries, and their comparison
-/

namespace EthTrie

open Nibbles

variable {α : Type} {P : Profile}

/-! ### What the recursion computes -/

theorem depthsOf_append (L₁ L₂ : List (Trie α × Nat)) (ty : NodeType) :
    depthsOf (L₁ ++ L₂) ty = depthsOf L₁ ty ++ depthsOf L₂ ty := by
  simp [depthsOf]

/-- The state after visiting the nodes `L`. -/
def StatState.add (st : StatState) (L : List (Trie α × Nat)) : StatState :=
  ⟨⟨st.counts.empty + (depthsOf L .empty).length, st.counts.hash + (depthsOf L .hash).length,
    st.counts.branch + (depthsOf L .branch).length, st.counts.ext + (depthsOf L .ext).length,
    st.counts.leaf + (depthsOf L .leaf).length⟩,
    st.leafDepthSum + (depthsOf L .leaf).sum, st.hashDepthSum + (depthsOf L .hash).sum,
    max st.lowestDepth (max ((depthsOf L .leaf).foldr max 0) ((depthsOf L .hash).foldr max 0))⟩

theorem foldr_max_append (a b : List Nat) :
    (a ++ b).foldr max 0 = max (a.foldr max 0) (b.foldr max 0) := by
  induction a with
  | nil => simp
  | cons x a ih => simp only [List.cons_append, List.foldr_cons, ih, Nat.max_assoc]

theorem StatState.add_append (st : StatState) (L₁ L₂ : List (Trie α × Nat)) :
    (st.add L₁).add L₂ = st.add (L₁ ++ L₂) := by
  simp only [StatState.add, depthsOf_append, List.length_append, List.sum_append, foldr_max_append,
    StatState.mk.injEq, NodeCounts.mk.injEq]
  refine ⟨⟨?_, ?_, ?_, ?_, ?_⟩, ?_, ?_, ?_⟩ <;> omega

/-- There is no overflow. -/
def StatState.Fits (st : StatState) (L : List (Trie α × Nat)) : Prop :=
  st.counts.empty + st.counts.hash + st.counts.branch + st.counts.ext + st.counts.leaf + L.length
      < 2 ^ 64 ∧
    st.leafDepthSum + st.hashDepthSum + (L.map (·.2)).sum < 2 ^ 64

theorem depthsOf_sum (L : List (Trie α × Nat)) :
    (depthsOf L .empty).length + (depthsOf L .hash).length + (depthsOf L .branch).length +
      (depthsOf L .ext).length + (depthsOf L .leaf).length = L.length ∧
    (depthsOf L .leaf).sum + (depthsOf L .hash).sum ≤ (L.map (·.2)).sum := by
  induction L with
  | nil => simp [depthsOf]
  | cons x L ih =>
    obtain ⟨t, d⟩ := x
    have : (t, d) :: L = [(t, d)] ++ L := rfl
    rw [this]
    simp only [depthsOf_append, List.length_append, List.map_append, List.sum_append]
    cases t <;> simp [depthsOf, Trie.type] at ih ⊢ <;> omega

theorem StatState.Fits.split {st : StatState} {L₁ L₂ : List (Trie α × Nat)}
    (h : st.Fits (L₁ ++ L₂)) : st.Fits L₁ ∧ (st.add L₁).Fits L₂ := by
  obtain ⟨h1, h2⟩ := h
  have ⟨h3, h4⟩ := depthsOf_sum L₁
  rw [List.length_append] at h1
  rw [List.map_append, List.sum_append] at h2
  refine ⟨⟨by omega, by omega⟩, ?_, ?_⟩ <;> simp only [StatState.add] <;> omega

theorem uadd_fits {a b : Nat} (h : a + b < 2 ^ 64) : uadd P a b = .ok (a + b) := by
  simp only [uadd]; rw [if_pos h]

theorem StatState.lower_eq (st : StatState) (d : Nat) :
    st.lower d = { st with lowestDepth := max st.lowestDepth d } := by
  unfold StatState.lower
  split
  · rw [Nat.max_eq_right (by omega)]
  · rw [Nat.max_eq_left (by omega)]

theorem forChildren_add {f : Fin 16 → StatState → R StatState} {g : Fin 16 → List (Trie α × Nat)}
    (hf : ∀ i st, st.Fits (g i) → f i st = .ok (st.add (g i))) :
    ∀ (is : List (Fin 16)) (st : StatState), st.Fits (is.map g).flatten →
      forChildren f is st = .ok (st.add (is.map g).flatten) := by
  intro is
  induction is with
  | nil => intro st _; simp [forChildren, StatState.add, depthsOf]
  | cons i is ih =>
    intro st h
    rw [List.map_cons, List.flatten_cons] at h ⊢
    obtain ⟨h1, h2⟩ := h.split
    rw [forChildren, hf i st h1, R_bind_ok, ih _ h2, StatState.add_append]

theorem nodes_head (t : Trie α) (d : Nat) : ∃ r, t.nodes d = (t, d) :: r := by
  cases t <;> exact ⟨_, rfl⟩

theorem statsRec_eq (t : Trie α) : ∀ (st : StatState) (d : Nat), st.Fits (t.nodes d) →
    statsRec P t st d = .ok (st.add (t.nodes d)) := by
  have ndFits : ∀ {st : StatState} {t : Trie α} {d : Nat}, st.Fits (t.nodes d) → d < 2 ^ 64 := by
    intro st t d h
    obtain ⟨r, hr⟩ := nodes_head t d
    have := h.2
    rw [hr, List.map_cons, List.sum_cons] at this
    simp only at this
    omega
  induction t with
  | empty a =>
    intro st d h
    have h1 := h.1
    simp only [Trie.nodes, List.length_singleton] at h1
    rw [statsRec, uadd_fits (by omega)]
    simp [Trie.nodes, StatState.add, depthsOf, Trie.type]
  | hash a x =>
    intro st d h
    obtain ⟨h1, h2⟩ := h
    simp only [Trie.nodes, List.length_singleton, List.map_cons, List.map_nil, List.sum_cons,
      List.sum_nil] at h1 h2
    rw [statsRec, uadd_fits (by omega), R_bind_ok, uadd_fits (by omega), R_bind_ok]
    simp [Trie.nodes, StatState.add, depthsOf, Trie.type, StatState.lower_eq]
  | leaf a n v =>
    intro st d h
    obtain ⟨h1, h2⟩ := h
    simp only [Trie.nodes, List.length_singleton, List.map_cons, List.map_nil, List.sum_cons,
      List.sum_nil] at h1 h2
    rw [statsRec, uadd_fits (by omega), R_bind_ok, uadd_fits (by omega), R_bind_ok]
    simp [Trie.nodes, StatState.add, depthsOf, Trie.type, StatState.lower_eq]
  | ext a n c ih =>
    intro st d h
    have hn : (Trie.ext a n c).nodes d = [(.ext a n c, d)] ++ c.nodes (d + 1) := rfl
    rw [hn] at h ⊢
    obtain ⟨h1, h2⟩ := h.split
    have h3 := ndFits h2
    have h4 := h1.1
    simp only [List.length_singleton] at h4
    rw [statsRec, uadd_fits (by omega), R_bind_ok, uadd_fits h3, R_bind_ok, ← StatState.add_append]
    have : ({ st with counts := { st.counts with ext := st.counts.ext + 1 } } : StatState) =
        st.add [(Trie.ext a n c, d)] := by
      simp [StatState.add, depthsOf, Trie.type]
    rw [this, ih _ _ h2]
  | branch a cs v ih =>
    intro st d h
    have hn : (Trie.branch a cs v).nodes d = [(.branch a cs v, d)] ++
      ((List.finRange 16).map fun i => (cs i).nodes (d + 1)).flatten := rfl
    rw [hn] at h ⊢
    obtain ⟨h1, h2⟩ := h.split
    have h4 := h1.1
    simp only [List.length_singleton] at h4
    rw [statsRec, uadd_fits (by omega), R_bind_ok, ← StatState.add_append]
    have : ({ st with counts := { st.counts with branch := st.counts.branch + 1 } } : StatState) =
        st.add [(Trie.branch a cs v, d)] := by
      simp [StatState.add, depthsOf, Trie.type]
    rw [this]
    refine forChildren_add (fun i st hst => ?_) _ _ h2
    rw [uadd_fits (ndFits hst), R_bind_ok, ih i st _ hst]

/-- C39: the statistics are exact (unless a counter would exceed 64 bits). -/
theorem C39_stats (t : Trie α) (name : Option String) (h1 : (t.nodes 0).length < 2 ^ 64)
    (h2 : ((t.nodes 0).map (·.2)).sum < 2 ^ 64) :
    trieStats P t name = .ok
      { name := name
        counts := ⟨t.count .empty, t.count .hash, t.count .branch, t.count .ext, t.count .leaf⟩
        lowestDepth := max ((depthsOf (t.nodes 0) .leaf).foldr max 0)
          ((depthsOf (t.nodes 0) .hash).foldr max 0)
        leafDepthSum := (depthsOf (t.nodes 0) .leaf).sum
        hashDepthSum := (depthsOf (t.nodes 0) .hash).sum } := by
  rw [trieStats, statsRec_eq t .init 0 ⟨by simpa [StatState.init] using h1,
    by simpa [StatState.init] using h2⟩, R_bind_ok]
  simp [StatState.add, StatState.init, Trie.count]

/-- The numbers of nodes that this is about. -/
example (K : Kind) (P : Profile) : ((caseT K P 0).nodes 0).length < 2 ^ 64 ∧
    (((caseT K P 0).nodes 0).map (·.2)).sum < 2 ^ 64 ∧ (caseT K P 0).count .branch = 4 ∧
    (caseT K P 0).count .leaf = 6 := by
  obtain ⟨P⟩ := P; cases K <;> cases P <;> decide +kernel

theorem nodes_length (t : Trie α) (d : Nat) : (t.nodes d).length =
    1 + 16 * (depthsOf (t.nodes d) .branch).length + (depthsOf (t.nodes d) .ext).length := by
  induction t generalizing d with
  | empty a => simp [Trie.nodes, depthsOf, Trie.type]
  | hash a h => simp [Trie.nodes, depthsOf, Trie.type]
  | leaf a n v => simp [Trie.nodes, depthsOf, Trie.type]
  | ext a n c ih =>
    have := ih (d + 1)
    simp [Trie.nodes, depthsOf, Trie.type] at this ⊢
    omega
  | branch a cs v ih =>
    have key : ∀ is : List (Fin 16), (is.map fun i => (cs i).nodes (d + 1)).flatten.length =
        is.length + 16 * (depthsOf (is.map fun i => (cs i).nodes (d + 1)).flatten .branch).length +
          (depthsOf (is.map fun i => (cs i).nodes (d + 1)).flatten .ext).length := by
      intro is
      induction is with
      | nil => simp [depthsOf]
      | cons i is ih' =>
        have := ih i (d + 1)
        simp only [List.map_cons, List.flatten_cons, List.length_append, List.length_cons,
          depthsOf_append] at ih' ⊢
        omega
    have := key (List.finRange 16)
    have hn : (Trie.branch a cs v).nodes d = [(.branch a cs v, d)] ++
      ((List.finRange 16).map fun i => (cs i).nodes (d + 1)).flatten := rfl
    rw [hn]
    simp only [depthsOf_append, List.length_append, List.length_finRange] at this ⊢
    simp only [depthsOf, Trie.type] at this ⊢
    simp at this ⊢
    omega

/-- C39: each branch has 16 children, each extension one, and every node except the root is one of
them. -/
theorem C39_total (t : Trie α) (h : (t.nodes 0).length < 2 ^ 64) :
    NodeCounts.total P ⟨t.count .empty, t.count .hash, t.count .branch, t.count .ext, t.count .leaf⟩ =
      .ok (1 + 16 * t.count .branch + t.count .ext) := by
  have h1 := nodes_length t 0
  have h2 := (depthsOf_sum (t.nodes 0)).1
  simp only [NodeCounts.total, NodeCounts.totalNonEmpty, NodeCounts.hashAndLeaf, Trie.count]
  rw [uadd_fits (by omega), R_bind_ok, uadd_fits (by omega), R_bind_ok, uadd_fits (by omega),
    R_bind_ok, uadd_fits (by omega)]
  congr 1
  omega

theorem items_length (t : Trie α) (d : Nat) (p : Key) : (t.plain.items p).length =
    (depthsOf (t.nodes d) .leaf).length + (depthsOf (t.nodes d) .hash).length +
      ((t.nodes d).filter fun x => x.1.branchValue).length := by
  induction t generalizing d p with
  | empty a => simp [Trie.nodes, depthsOf, Trie.type, Trie.branchValue, Trie.plain, LNode.items]
  | hash a h => simp [Trie.nodes, depthsOf, Trie.type, Trie.branchValue, Trie.plain, LNode.items]
  | leaf a n v => simp [Trie.nodes, depthsOf, Trie.type, Trie.branchValue, Trie.plain, LNode.items]
  | ext a n c ih =>
    have := ih (d + 1) (p ++ n.toList)
    have hn : (Trie.ext a n c).nodes d = [(.ext a n c, d)] ++ c.nodes (d + 1) := rfl
    rw [hn]
    simp only [Trie.plain, LNode.items, this, depthsOf_append, List.filter_append, List.length_append]
    simp [depthsOf, Trie.type, Trie.branchValue]
  | branch a cs v ih =>
    have key : ∀ is : List (Fin 16),
        (is.map fun i => (cs i).plain.items (p ++ [i])).flatten.length =
        (depthsOf (is.map fun i => (cs i).nodes (d + 1)).flatten .leaf).length +
        (depthsOf (is.map fun i => (cs i).nodes (d + 1)).flatten .hash).length +
        ((is.map fun i => (cs i).nodes (d + 1)).flatten.filter fun x => x.1.branchValue).length := by
      intro is
      induction is with
      | nil => simp [depthsOf]
      | cons i is ih' =>
        have := ih i (d + 1) (p ++ [i])
        simp only [List.map_cons, List.flatten_cons, List.length_append, List.filter_append,
          depthsOf_append] at ih' ⊢
        omega
    have := key (List.finRange 16)
    have hn : (Trie.branch a cs v).nodes d = [(.branch a cs v, d)] ++
      ((List.finRange 16).map fun i => (cs i).nodes (d + 1)).flatten := rfl
    rw [hn]
    simp only [Trie.plain, LNode.items, List.length_append, this, depthsOf_append, List.filter_append]
    have h1 : (depthsOf [(Trie.branch a cs v, d)] .leaf).length = 0 := by simp [depthsOf, Trie.type]
    have h2 : (depthsOf [(Trie.branch a cs v, d)] .hash).length = 0 := by simp [depthsOf, Trie.type]
    have h3 : (if v = [] then [] else [(p, ValOrHash.val v)]).length =
        (List.filter (fun x => x.1.branchValue) [(Trie.branch a cs v, d)]).length := by
      cases v <;> simp [Trie.branchValue]
    rw [h1, h2, h3]
    omega

/-- C39: leaves, hash nodes and values of branches are the entries that `items` yields. -/
theorem C39_items {K : Kind} {M : Mode} {kec : Bytes → H256} {s : Sys K.Ann K.State} {i : Nat}
    {t : Trie K.Ann} (h : Live K M P kec s) (hi : s.hs[i]? = some t) (hb : t.PathsAtMost 64) :
    ∃ xs, t.items P = .ok xs ∧ xs.length = t.count .leaf + t.count .hash +
      ((t.nodes 0).filter fun x => x.1.branchValue).length :=
  ⟨_, h.items_short hi ((plain_bound t).2 hb), by rw [packItems, List.length_map, items_length t 0]; rfl⟩

example (K : Kind) (P : Profile) : ∃ xs, (caseT K P 0).items P = .ok xs ∧ xs.length =
    (caseT K P 0).count .leaf + (caseT K P 0).count .hash +
      (((caseT K P 0).nodes 0).filter fun x => x.1.branchValue).length :=
  C39_items (caseLive K P) (caseGet K P (by decide)) (casePaths K P _ (by decide))

/-! ## C51 -/

section
variable {β : Type} {kec : Bytes → H256}

theorem depthsOf_flatten {is : List (Fin 16)} {f : Fin 16 → List (Trie α × Nat)} {ty : NodeType} :
    depthsOf (is.map f).flatten ty = (is.map fun i => depthsOf (f i) ty).flatten := by
  induction is with
  | nil => rfl
  | cons i is ih => simp only [List.map_cons, List.flatten_cons, depthsOf_append, ih]

theorem sublist_flatten {γ : Type} {f g : Fin 16 → List γ} (h : ∀ i, (f i).Sublist (g i)) :
    ∀ is : List (Fin 16), (is.map f).flatten.Sublist (is.map g).flatten
  | [] => .refl _
  | i :: is => by
    rw [List.map_cons, List.map_cons, List.flatten_cons, List.flatten_cons]
    exact (h i).append (sublist_flatten h is)

/-- A partial view has, apart from hash nodes, only nodes of the original, at the same depths. -/
theorem view_sublist {p : Trie α} {t : Trie β} (h : p.ViewOf P kec t) {ty : NodeType} (hty : ty ≠ .hash)
    (d : Nat) : (depthsOf (p.nodes d) ty).Sublist (depthsOf (t.nodes d) ty) := by
  have one : ∀ {p : Trie α} {t : Trie β}, p.type = t.type → ∀ d,
      (depthsOf [(p, d)] ty).Sublist (depthsOf [(t, d)] ty) := by
    intro p t h d
    have : depthsOf [(p, d)] ty = depthsOf [(t, d)] ty := by
      simp only [depthsOf, List.filter_cons, h]
      split <;> rfl
    rw [this]
  induction h generalizing d with
  | away a x t he =>
    have : depthsOf ((Trie.hash a x).nodes d) ty = [] := by
      simp [Trie.nodes, depthsOf, Trie.type, hty.symm]
    rw [this]
    exact List.nil_sublist _
  | empty a b => exact one rfl d
  | leaf a b n v => exact one rfl d
  | ext a b n p c h ih =>
    have e1 : (Trie.ext a n p).nodes d = [(.ext a n p, d)] ++ p.nodes (d + 1) := rfl
    have e2 : (Trie.ext b n c).nodes d = [(.ext b n c, d)] ++ c.nodes (d + 1) := rfl
    rw [e1, e2, depthsOf_append, depthsOf_append]
    exact List.Sublist.append (one rfl d) (ih _)
  | branch a b ps cs v h ih =>
    have e1 : (Trie.branch a ps v).nodes d = [(.branch a ps v, d)] ++
      ((List.finRange 16).map fun i => (ps i).nodes (d + 1)).flatten := rfl
    have e2 : (Trie.branch b cs v).nodes d = [(.branch b cs v, d)] ++
      ((List.finRange 16).map fun i => (cs i).nodes (d + 1)).flatten := rfl
    rw [e1, e2, depthsOf_append, depthsOf_append, depthsOf_flatten, depthsOf_flatten]
    exact List.Sublist.append (one rfl d) (sublist_flatten (fun i => ih i _) _)

theorem sublist_sum {l l' : List Nat} (h : l.Sublist l') : l.sum ≤ l'.sum := by
  induction h with
  | slnil => exact Nat.le_refl _
  | cons a _ ih => rw [List.sum_cons]; omega
  | cons_cons a _ ih => rw [List.sum_cons, List.sum_cons]; omega

/-- The depths of the leaves and hash nodes. -/
def endsOf (L : List (Trie α × Nat)) : List Nat := depthsOf L .leaf ++ depthsOf L .hash

theorem mem_endsOf {L : List (Trie α × Nat)} {n : Nat} :
    n ∈ endsOf L ↔ ∃ x ∈ L, (x.1.type = .leaf ∨ x.1.type = .hash) ∧ x.2 = n := by
  simp only [endsOf, depthsOf, List.mem_append, List.mem_map, List.mem_filter, decide_eq_true_eq]
  constructor
  · rintro (⟨x, ⟨h1, h2⟩, h3⟩ | ⟨x, ⟨h1, h2⟩, h3⟩)
    · exact ⟨x, h1, .inl h2, h3⟩
    · exact ⟨x, h1, .inr h2, h3⟩
  · rintro ⟨x, h1, h2 | h2, h3⟩
    · exact .inl ⟨x, ⟨h1, h2⟩, h3⟩
    · exact .inr ⟨x, ⟨h1, h2⟩, h3⟩

theorem ends_deep {t : Trie α} (hc : t.Canonical) (ho : t.Occupied) (d : Nat) :
    ∃ n ∈ endsOf (t.nodes d), d ≤ n := by
  induction t generalizing d with
  | empty a => exact ho.elim
  | hash a x => exact ⟨d, by simp [mem_endsOf, Trie.nodes, Trie.type], Nat.le_refl _⟩
  | leaf a n v => exact ⟨d, by simp [mem_endsOf, Trie.nodes, Trie.type], Nat.le_refl _⟩
  | ext a n c ih =>
    obtain ⟨m, h1, h2⟩ := ih hc.2.2 (by have := hc.2.1; cases c <;> first | trivial | exact this.elim) (d + 1)
    rw [mem_endsOf] at h1
    obtain ⟨x, h3, h4, h5⟩ := h1
    exact ⟨m, mem_endsOf.2 ⟨x, List.mem_cons_of_mem _ h3, h4, h5⟩, by omega⟩
  | branch a cs v ih =>
    have : ∃ i, (cs i).Occupied := by
      rcases hc.2 with ⟨i, _, _, h, _⟩ | ⟨_, i, h⟩ <;> exact ⟨i, h⟩
    obtain ⟨i, hi⟩ := this
    obtain ⟨m, h1, h2⟩ := ih i (hc.1 i) hi (d + 1)
    rw [mem_endsOf] at h1
    obtain ⟨x, h3, h4, h5⟩ := h1
    refine ⟨m, mem_endsOf.2 ⟨x, List.mem_cons_of_mem _ ?_, h4, h5⟩, by omega⟩
    exact List.mem_flatten.2 ⟨_, List.mem_map.2 ⟨i, List.mem_finRange i, rfl⟩, h3⟩

theorem refer_occupied {t : Trie β} {x : H256} (h : t.refer P kec = .ok (.hashed x)) : t.Occupied := by
  cases t with
  | empty a =>
    exfalso
    have e : (Trie.empty a : Trie β).bare = Trie.empty () := rfl
    rw [Trie.refer, e, hashIntern, run_cached] at h
    cases h
  | _ => trivial

theorem endsOf_append_length (L₁ L₂ : List (Trie α × Nat)) :
    (endsOf (L₁ ++ L₂)).length = (endsOf L₁).length + (endsOf L₂).length := by
  simp only [endsOf, depthsOf_append, List.length_append]; omega

/-- Every leaf or hash node of a partial view stands for at least one leaf or hash node of the
original that is not less deep. -/
theorem view_ends {p : Trie α} {t : Trie β} (h : p.ViewOf P kec t) (hc : t.Canonical) (d : Nat) :
    (endsOf (p.nodes d)).length ≤ (endsOf (t.nodes d)).length ∧
    ∀ n ∈ endsOf (p.nodes d), ∃ m ∈ endsOf (t.nodes d), n ≤ m := by
  induction h generalizing d with
  | away a x t he =>
    obtain ⟨m, h1, h2⟩ := ends_deep hc (refer_occupied he) d
    have e : endsOf ((Trie.hash a x).nodes d) = [d] := by simp [endsOf, depthsOf, Trie.nodes, Trie.type]
    rw [e]
    refine ⟨List.length_pos_of_mem h1, ?_⟩
    intro n hn
    rw [List.mem_singleton.1 hn]
    exact ⟨m, h1, h2⟩
  | empty a b => simp [Trie.nodes, endsOf, depthsOf, Trie.type]
  | leaf a b n v => simp [Trie.nodes, endsOf, depthsOf, Trie.type]
  | ext a b n p c h ih =>
    obtain ⟨h1, h2⟩ := ih hc.2.2 (d + 1)
    have e1 : endsOf ((Trie.ext a n p).nodes d) = endsOf (p.nodes (d + 1)) := by
      simp [endsOf, depthsOf, Trie.nodes, Trie.type]
    have e2 : endsOf ((Trie.ext b n c).nodes d) = endsOf (c.nodes (d + 1)) := by
      simp [endsOf, depthsOf, Trie.nodes, Trie.type]
    rw [e1, e2]
    exact ⟨h1, h2⟩
  | branch a b ps cs v h ih =>
    have e1 : endsOf ((Trie.branch a ps v).nodes d) =
        endsOf ((List.finRange 16).map fun i => (ps i).nodes (d + 1)).flatten := by
      simp [endsOf, depthsOf, Trie.nodes, Trie.type]
    have e2 : endsOf ((Trie.branch b cs v).nodes d) =
        endsOf ((List.finRange 16).map fun i => (cs i).nodes (d + 1)).flatten := by
      simp [endsOf, depthsOf, Trie.nodes, Trie.type]
    rw [e1, e2]
    refine ⟨?_, ?_⟩
    · generalize List.finRange 16 = is
      induction is with
      | nil => simp [endsOf, depthsOf]
      | cons i is ih' =>
        have := (ih i (hc.1 i) (d + 1)).1
        simp only [List.map_cons, List.flatten_cons, endsOf_append_length] at ih' ⊢
        omega
    · intro n hn
      obtain ⟨x, h1, h2, h3⟩ := mem_endsOf.1 hn
      obtain ⟨l, h4, h5⟩ := List.mem_flatten.1 h1
      obtain ⟨i, hi, rfl⟩ := List.mem_map.1 h4
      obtain ⟨m, h6, h7⟩ := (ih i (hc.1 i) (d + 1)).2 n (mem_endsOf.2 ⟨x, h5, h2, h3⟩)
      obtain ⟨y, h8, h9, h10⟩ := mem_endsOf.1 h6
      exact ⟨m, mem_endsOf.2 ⟨y, List.mem_flatten.2 ⟨_, List.mem_map.2 ⟨i, hi, rfl⟩, h8⟩, h9, h10⟩, h7⟩

theorem foldr_max_le {l : List Nat} {b : Nat} : l.foldr max 0 ≤ b ↔ ∀ n ∈ l, n ≤ b := by
  induction l with
  | nil => simp
  | cons x l ih => simp [ih]

theorem le_foldr_max {l : List Nat} {n : Nat} (h : n ∈ l) : n ≤ l.foldr max 0 :=
  foldr_max_le.1 (Nat.le_refl _) n h

theorem nodes_deep (t : Trie α) (d : Nat) : ∀ x ∈ t.nodes d, d ≤ x.2 := by
  induction t generalizing d with
  | empty a => simp [Trie.nodes]
  | hash a h => simp [Trie.nodes]
  | leaf a n v => simp [Trie.nodes]
  | ext a n c ih =>
    intro x hx
    rcases List.mem_cons.1 hx with rfl | hx
    · exact Nat.le_refl _
    · have := ih (d + 1) x hx; omega
  | branch a cs v ih =>
    intro x hx
    rcases List.mem_cons.1 hx with rfl | hx
    · exact Nat.le_refl _
    · obtain ⟨l, h4, h5⟩ := List.mem_flatten.1 hx
      obtain ⟨i, _, rfl⟩ := List.mem_map.1 h4
      have := ih i (d + 1) x h5; omega

theorem nodes_pos (t : Trie α) (d : Nat) : 0 < (t.nodes d).length := by
  obtain ⟨r, hr⟩ := nodes_head t d
  rw [hr]; simp

/-- The sum of the depths of the nodes of a partial view is not greater either. -/
theorem view_sum {p : Trie α} {t : Trie β} (h : p.ViewOf P kec t) (d : Nat) :
    ((p.nodes d).map (·.2)).sum ≤ ((t.nodes d).map (·.2)).sum := by
  induction h generalizing d with
  | away a x t he =>
    obtain ⟨r, hr⟩ := nodes_head t d
    rw [hr]
    simp [Trie.nodes]
  | empty a b => simp [Trie.nodes]
  | leaf a b n v => simp [Trie.nodes]
  | ext a b n p c h ih =>
    have := ih (d + 1)
    simp only [Trie.nodes, List.map_cons, List.sum_cons]; omega
  | branch a b ps cs v h ih =>
    simp only [Trie.nodes, List.map_cons, List.sum_cons]
    refine Nat.add_le_add_left ?_ _
    generalize List.finRange 16 = is
    induction is with
    | nil => simp
    | cons i is ih' =>
      have := ih i (d + 1)
      simp only [List.map_cons, List.flatten_cons, List.map_append, List.sum_append] at ih' ⊢
      omega

/-- C51: comparing the statistics of a partial view of a canonical trie with those of the trie gives
pairs whose first component is not larger, except for hash nodes, of which a view may have more, but not
more than there are leaves and hash nodes in the trie. -/
theorem C51_view {p : Trie α} {t : Trie β} (h : p.ViewOf P kec t) (hc : t.Canonical)
    (h1 : (t.nodes 0).length < 2 ^ 64) (h2 : ((t.nodes 0).map (·.2)).sum < 2 ^ 64)
    (name name' : Option String) :
    ∃ x y n d, trieStats P p name = .ok x ∧ trieStats P t name' = .ok y ∧ x.compare P y = .ok (n, d) ∧
      n.tot.1 ≤ n.tot.2 ∧ n.nonEmpty.1 ≤ n.nonEmpty.2 ∧ n.empty.1 ≤ n.empty.2 ∧ n.branch.1 ≤ n.branch.2 ∧
      n.ext.1 ≤ n.ext.2 ∧ n.leaf.1 ≤ n.leaf.2 ∧ n.leaf.1 + n.hash.1 ≤ n.leaf.2 + n.hash.2 ∧
      d.lowest.1 ≤ d.lowest.2 ∧ d.avgLeaf.1.1 ≤ d.avgLeaf.2.1 := by
  have hb := (view_sublist h (ty := .branch) (by decide) 0).length_le
  have he := (view_sublist h (ty := .ext) (by decide) 0).length_le
  have hm := (view_sublist h (ty := .empty) (by decide) 0).length_le
  have hl := (view_sublist h (ty := .leaf) (by decide) 0).length_le
  have hs : (depthsOf (p.nodes 0) .leaf).sum ≤ (depthsOf (t.nodes 0) .leaf).sum :=
    sublist_sum (view_sublist h (by decide) 0)
  obtain ⟨hn, hx⟩ := view_ends h hc 0
  have hp := nodes_length p 0
  have ht := nodes_length t 0
  have hsum := view_sum h 0
  have sp := depthsOf_sum (p.nodes 0)
  have st := depthsOf_sum (t.nodes 0)
  simp only [endsOf, List.length_append] at hn
  have tot : ∀ {γ : Type} {u : Trie γ}, (u.nodes 0).length < 2 ^ 64 →
      NodeCounts.total P ⟨u.count .empty, u.count .hash, u.count .branch, u.count .ext, u.count .leaf⟩ =
        .ok (u.nodes 0).length ∧
      NodeCounts.totalNonEmpty P ⟨u.count .empty, u.count .hash, u.count .branch, u.count .ext, u.count .leaf⟩ =
        .ok ((u.nodes 0).length - u.count .empty) := by
    intro γ u hu
    have h2 := (depthsOf_sum (u.nodes 0)).1
    simp only [NodeCounts.total, NodeCounts.totalNonEmpty, NodeCounts.hashAndLeaf, Trie.count]
    rw [uadd_fits (by omega), R_bind_ok, uadd_fits (by omega), R_bind_ok, uadd_fits (by omega),
      R_bind_ok, uadd_fits (by omega)]
    constructor <;> congr 1 <;> omega
  have hle : (p.nodes 0).length ≤ (t.nodes 0).length := by omega
  obtain ⟨t1, t2⟩ := tot (u := t) h1
  obtain ⟨t3, t4⟩ := tot (u := p) (by omega)
  refine ⟨_, _, ?n, ?d, C39_stats p name (by omega) (by omega), C39_stats t name' h1 h2, ?h, ?_⟩
  case h =>
    simp only [TrieStats.compare, NodeCounts.compare, t1, t2, t3, t4, R_bind_ok, R_pure]
    rfl
  · simp only [TrieStats.compareDepths, Trie.count]
    refine ⟨hle, by omega, hm, hb, he, hl, hn, ?_, hs⟩
    rw [← foldr_max_append, ← foldr_max_append]
    rw [foldr_max_le]
    intro n hn
    obtain ⟨m, h3, h4⟩ := hx n hn
    exact h4.trans (le_foldr_max h3)

/-- The number of nodes with sub-tries or values in a list. -/
def solids (L : List (Trie α × Nat)) : Nat :=
  (depthsOf L .branch).length + (depthsOf L .ext).length + (depthsOf L .leaf).length

theorem solids_append (L₁ L₂ : List (Trie α × Nat)) : solids (L₁ ++ L₂) = solids L₁ + solids L₂ := by
  simp only [solids, depthsOf_append, List.length_append]; omega

theorem view_solids {p : Trie α} {t : Trie β} (h : p.ViewOf P kec t) (d : Nat) :
    solids (p.nodes d) ≤ solids (t.nodes d) :=
  Nat.add_le_add (Nat.add_le_add (view_sublist h (by decide) d).length_le
    (view_sublist h (by decide) d).length_le) (view_sublist h (by decide) d).length_le

theorem flatten_solids {f : Fin 16 → List (Trie α × Nat)} {g : Fin 16 → List (Trie β × Nat)}
    (h : ∀ i, solids (f i) ≤ solids (g i)) : ∀ is : List (Fin 16),
    solids (is.map f).flatten ≤ solids (is.map g).flatten ∧
    (solids (is.map g).flatten ≤ solids (is.map f).flatten → ∀ i ∈ is, solids (g i) ≤ solids (f i))
  | [] => ⟨by simp [solids, depthsOf], by simp⟩
  | i :: is => by
    obtain ⟨h1, h2⟩ := flatten_solids h is
    have h3 := h i
    simp only [List.map_cons, List.flatten_cons, solids_append]
    refine ⟨by omega, fun h4 j hj => ?_⟩
    rcases List.mem_cons.1 hj with rfl | hj
    · omega
    · exact h2 (by omega) j hj

theorem view_same {p : Trie α} {t : Trie β} (h : p.ViewOf P kec t) (d : Nat)
    (hs : solids (t.nodes d) ≤ solids (p.nodes d)) : p.beq t = true := by
  induction h generalizing d with
  | away a x t he =>
    have e : solids ((Trie.hash a x).nodes d) = 0 := by simp [solids, depthsOf, Trie.nodes, Trie.type]
    rw [e] at hs
    cases t with
    | empty b => exact (refer_occupied he).elim
    | hash b y =>
      have e : (Trie.hash b y : Trie β).bare = Trie.hash () y := rfl
      rw [Trie.refer, e, hashIntern, run_cached] at he
      have : (EncodedNode.hashed y) = .hashed x := Except.ok.inj he
      simp only [Trie.beq, EncodedNode.hashed.inj this, beq_self_eq_true]
    | _ => simp [solids, depthsOf, Trie.nodes, Trie.type] at hs
  | empty a b => rfl
  | leaf a b n v => simp [Trie.beq]
  | ext a b n p c h ih =>
    simp only [Trie.beq, beq_self_eq_true, Bool.true_and]
    refine ih (d + 1) ?_
    have e1 : (Trie.ext a n p).nodes d = [(.ext a n p, d)] ++ p.nodes (d + 1) := rfl
    have e2 : (Trie.ext b n c).nodes d = [(.ext b n c, d)] ++ c.nodes (d + 1) := rfl
    rw [e1, e2, solids_append, solids_append] at hs
    exact Nat.le_of_add_le_add_left (a := 1) (by simpa [solids, depthsOf, Trie.type] using hs)
  | branch a b ps cs v h ih =>
    simp only [Trie.beq, beq_self_eq_true, Bool.true_and, List.all_eq_true]
    intro i hi
    refine ih i (d + 1) ?_
    have e1 : (Trie.branch a ps v).nodes d = [(.branch a ps v, d)] ++
      ((List.finRange 16).map fun i => (ps i).nodes (d + 1)).flatten := rfl
    have e2 : (Trie.branch b cs v).nodes d = [(.branch b cs v, d)] ++
      ((List.finRange 16).map fun i => (cs i).nodes (d + 1)).flatten := rfl
    rw [e1, e2, solids_append, solids_append] at hs
    have e3 : solids [(Trie.branch a ps v, d)] = 1 := by simp [solids, depthsOf, Trie.type]
    have e4 : solids [(Trie.branch b cs v, d)] = 1 := by simp [solids, depthsOf, Trie.type]
    exact (flatten_solids (fun i => view_solids (h i) (d + 1)) (List.finRange 16)).2 (by omega) i hi

theorem beq_types {p : Trie α} {t : Trie β} (h : p.beq t = true) (d : Nat) :
    (p.nodes d).map (fun x => (x.1.type, x.2)) = (t.nodes d).map fun x => (x.1.type, x.2) := by
  induction p generalizing t d with
  | empty a => cases t <;> simp_all [Trie.beq, Trie.nodes, Trie.type]
  | hash a x => cases t <;> simp_all [Trie.beq, Trie.nodes, Trie.type]
  | leaf a n v => cases t <;> simp_all [Trie.beq, Trie.nodes, Trie.type]
  | ext a n c ih =>
    cases t with
    | ext b m c' =>
      simp only [Trie.beq, Bool.and_eq_true] at h
      simp only [Trie.nodes, List.map_cons, ih h.2]
      rfl
    | _ => simp [Trie.beq] at h
  | branch a cs v ih =>
    cases t with
    | branch b cs' v' =>
      simp only [Trie.beq, Bool.and_eq_true, List.all_eq_true, List.mem_finRange, true_implies] at h
      simp only [Trie.nodes, List.map_cons, List.map_flatten, List.map_map]
      refine congrArg₂ List.cons rfl (congrArg List.flatten ?_)
      exact List.map_congr_left fun i _ => ih i (h.2 i) (d + 1)
    | _ => simp [Trie.beq] at h

theorem depthsOf_types (L : List (Trie α × Nat)) (ty : NodeType) :
    depthsOf L ty = ((L.map fun x => (x.1.type, x.2)).filter fun x => x.1 = ty).map (·.2) := by
  rw [List.filter_map, List.map_map]; rfl

/-- C51: a partial view is equal to the original exactly if it has as many branches, extensions and
leaves. -/
theorem C51_equal {p : Trie α} {t : Trie β} (h : p.ViewOf P kec t) :
    p.beq t = true ↔ p.count .branch = t.count .branch ∧ p.count .ext = t.count .ext ∧
      p.count .leaf = t.count .leaf := by
  constructor
  · intro hb
    simp only [Trie.count, depthsOf_types, beq_types hb, and_self]
  · rintro ⟨h1, h2, h3⟩
    exact view_same h 0 (by simp only [solids, Trie.count] at *; omega)

end

section
variable {K : Kind} {M : Mode} {kec : Bytes → H256} {s : Sys K.Ann K.State} {i : Nat} {t : Trie K.Ann}

/-- C51 for subsets. -/
theorem C51_subset [M.Safe] (h : Reached K M P kec s) (hi : s.hs[i]? = some t) {ks : List Key}
    (hk : ∀ k ∈ ks, k.length ≤ 127) {t' : Trie K.Ann} {st : K.State}
    (he : createTrieSubset P kec t (ks.map ofList) s.state = .ok (.ok t', st))
    (h1 : (t.nodes 0).length < 2 ^ 64) (h2 : ((t.nodes 0).map (·.2)).sum < 2 ^ 64)
    (name name' : Option String) :
    ∃ x y n d, trieStats P t' name = .ok x ∧ trieStats P t name' = .ok y ∧ x.compare P y = .ok (n, d) ∧
      n.tot.1 ≤ n.tot.2 ∧ n.nonEmpty.1 ≤ n.nonEmpty.2 ∧ n.empty.1 ≤ n.empty.2 ∧ n.branch.1 ≤ n.branch.2 ∧
      n.ext.1 ≤ n.ext.2 ∧ n.leaf.1 ≤ n.leaf.2 ∧ n.leaf.1 + n.hash.1 ≤ n.leaf.2 + n.hash.2 ∧
      d.lowest.1 ≤ d.lowest.2 ∧ d.avgLeaf.1.1 ≤ d.avgLeaf.2.1 ∧
      (t'.beq t = true ↔ n.branch.1 = n.branch.2 ∧ n.ext.1 = n.ext.2 ∧ n.leaf.1 = n.leaf.2) := by
  have hv := C27_view h.live hi hk (fun _ => h.live.freshAt i) he
  obtain ⟨x, y, n, d, e1, e2, e3, g⟩ := C51_view hv (C37_canonical h (List.mem_of_getElem? hi)).1 h1 h2 name name'
  refine ⟨x, y, n, d, e1, e2, e3, g.1, g.2.1, g.2.2.1, g.2.2.2.1, g.2.2.2.2.1, g.2.2.2.2.2.1,
    g.2.2.2.2.2.2.1, g.2.2.2.2.2.2.2.1, g.2.2.2.2.2.2.2.2, ?_⟩
  rw [C51_equal hv]
  have hle := (view_sublist hv (ty := .branch) (by decide) 0).length_le
  have hb := nodes_length t' 0
  have hb' := nodes_length t 0
  have he' := (view_sublist hv (ty := .ext) (by decide) 0).length_le
  have hs := view_sum hv 0
  rw [C39_stats t' name (by omega) (by omega)] at e1
  rw [C39_stats t name' h1 h2] at e2
  cases e1; cases e2
  simp only [TrieStats.compare, NodeCounts.compare, R_bind_eq_ok, R_pure] at e3
  obtain ⟨_, ⟨_, _, _, _, _, _, _, _, e5⟩, e4⟩ := e3
  cases e5; cases e4
  rfl

end

/-- The statistics of a trie and of a subset of it, compared. -/
def statsObs (K : Kind) (P : Profile) (cs : List Cmd) : R (NodeComparison × DepthComparison) := do
  let (s, _) ← K.run P kec0 cs
  match s.hs[0]?, s.hs[1]? with
  | some t, some t' => do (← trieStats P t' none).compare P (← trieStats P t none)
  | _, _ => .error .expectFailed

example : ∀ K : Kind, ∀ P : Profile, statsObs K P [.fromIter [([1, 1, 1], .val (List.replicate 40 1)),
    ([1, 2, 1], .val (List.replicate 40 2)), ([2, 2, 1], .val (List.replicate 40 3))],
    .subset 0 [[2, 2, 1]]] =
    .ok (⟨(17, 33), (3, 5), (14, 28), (1, 0), (1, 2), (0, 0), (1, 3)⟩,
      ⟨(1, 2), ((1, 1), (5, 3)), ((1, 1), (0, 0))⟩) := by
  intro K ⟨P⟩; cases K <;> cases P <;> decide +kernel

/-- A branch with two leaves and an elided sub-trie below an extension. -/
def exStats : Trie Unit :=
  .branch () (upd (upd (fun _ => .empty ()) 2 (.leaf () ⟨1, 1⟩ [1])) 3
    (.ext () ⟨2, 0x12⟩ (.branch () (upd (upd (fun _ => .empty ()) 0 (.hash () (Vector.replicate 32 1)))
      1 (.leaf () ⟨0, 0⟩ [2])) [5]))) []

example : trieStats .debug exStats none = .ok ⟨none, ⟨28, 1, 2, 1, 2⟩, 3, 4, 3⟩ ∧
    (exStats.nodes 0).length = 34 ∧ (exStats.items .debug).map List.length = .ok 4 := by
  decide +kernel

end EthTrie
