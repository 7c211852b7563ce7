import Mathlib.Tactic.IntervalCases
import Verif.Debug.StatsShow
import Verif.Debug.Text
import Verif.Float.Ops
import Verif.Props.Stats

/-!
# Properties C54 and C55: averages and percentages, and the printed statistics
-/

namespace EthTrie

open F32

variable {α β : Type} {P : Profile}

/-! ## C54 -/

/-- `x` is the average of the numbers in `L` up to a relative error of `2 ^ -22`; there is none if `L`
is empty. -/
def IsAverage (L : List ℕ) (x : F32) : Prop :=
  (L = [] ∧ x = .nan) ∨
    (L ≠ [] ∧ ∃ q : ℚ, x = .fin q ∧ |q - L.sum / L.length| ≤ (L.sum / L.length) / 2 ^ 22)

theorem isAverage (L : List ℕ) (h1 : L.length < 2 ^ 64) (h2 : L.sum < 2 ^ 64) :
    IsAverage L (F32.div (F32.ofNat L.sum) (F32.ofNat L.length)) := by
  rw [div_counters h2 h1]
  rcases eq_or_ne L [] with h0 | h0
  · subst h0; exact .inl ⟨rfl, rfl⟩
  · have hn : L.length ≠ 0 := fun h => h0 (List.length_eq_zero_iff.1 h)
    rw [if_neg hn]
    refine .inr ⟨h0, _, rfl, ?_⟩
    have := close_quot (a := L.sum) h1 hn
    unfold Close at this
    refine le_trans this (le_of_eq ?_)
    rw [mul_div_assoc']
    rw [div_eq_div_iff (by norm_num) (by norm_num)]
    ring

theorem fits_sums (t : Trie α) (h1 : (t.nodes 0).length < 2 ^ 64)
    (h2 : ((t.nodes 0).map (·.2)).sum < 2 ^ 64) (ty : NodeType) :
    (depthsOf (t.nodes 0) ty).length < 2 ^ 64 ∧ (depthsOf (t.nodes 0) .leaf).sum < 2 ^ 64 ∧
      (depthsOf (t.nodes 0) .hash).sum < 2 ^ 64 := by
  have h := depthsOf_sum (t.nodes 0)
  refine ⟨?_, by omega, by omega⟩
  cases ty <;> omega

/-- C54: the average depths are the averages of the depths of all leaves and of all hash nodes, up to a
relative error of `2 ^ -22`. -/
theorem C54_average (t : Trie α) (name : Option String) (h1 : (t.nodes 0).length < 2 ^ 64)
    (h2 : ((t.nodes 0).map (·.2)).sum < 2 ^ 64) :
    ∃ s, trieStats P t name = .ok s ∧ IsAverage (depthsOf (t.nodes 0) .leaf) s.avgLeaf ∧
      IsAverage (depthsOf (t.nodes 0) .hash) s.avgHash :=
  ⟨_, C39_stats t name h1 h2,
    isAverage _ (fits_sums t h1 h2 .leaf).1 (fits_sums t h1 h2 .leaf).2.1,
    isAverage _ (fits_sums t h1 h2 .hash).1 (fits_sums t h1 h2 .hash).2.2⟩

theorem sum_le_max {L : List ℕ} {m : ℕ} (h : ∀ x ∈ L, x ≤ m) : L.sum ≤ L.length * m := by
  induction L with
  | nil => simp
  | cons x L ih =>
    have := ih fun y hy => h y (List.mem_cons_of_mem _ hy)
    have := h x List.mem_cons_self
    simp only [List.sum_cons, List.length_cons, Nat.succ_mul]
    omega

theorem min_le_sum {L : List ℕ} {m : ℕ} (h : ∀ x ∈ L, m ≤ x) : L.length * m ≤ L.sum := by
  induction L with
  | nil => simp
  | cons x L ih =>
    have := ih fun y hy => h y (List.mem_cons_of_mem _ hy)
    have := h x List.mem_cons_self
    simp only [List.sum_cons, List.length_cons, Nat.succ_mul]
    omega

theorem average_small {L : List ℕ} (h0 : L ≠ []) (h1 : L.length ≤ 2 ^ 24) (h2 : L.sum ≤ 2 ^ 24) :
    ∃ q : ℚ, F32.div (F32.ofNat L.sum) (F32.ofNat L.length) = .fin q ∧ F32.Rep q ∧
      (∀ y, F32.Rep y → |q - L.sum / L.length| ≤ |y - L.sum / L.length|) ∧
      (∀ m : ℕ, (∀ x ∈ L, x ≤ m) → q ≤ m) ∧ ∀ m : ℕ, (∀ x ∈ L, m ≤ x) → (m : ℚ) ≤ q := by
  have hn : L.length ≠ 0 := fun h => h0 (List.length_eq_zero_iff.1 h)
  have hp : (0 : ℚ) < L.length := by exact_mod_cast Nat.pos_of_ne_zero hn
  have hq : (0 : ℚ) ≤ (L.sum : ℚ) / L.length := by positivity
  rw [div_counters (by omega) (by omega), if_neg hn, quot_small h2 h1]
  have hle : (L.sum : ℚ) / L.length ≤ 2 ^ 24 := by
    rw [div_le_iff₀ hp]
    have : (L.sum : ℚ) ≤ 2 ^ 24 := by exact_mod_cast h2
    have : (1 : ℚ) ≤ L.length := by exact_mod_cast Nat.pos_of_ne_zero hn
    nlinarith
  refine ⟨_, rfl, rep_roundRat hq ?_, fun y hy => roundRat_near hq hy, fun m hm => ?_, fun m hm => ?_⟩
  · refine lt_of_le_of_lt (roundRat_mono hq (show _ ≤ ((2 ^ 24 : ℕ) : ℚ) by exact_mod_cast hle)) ?_
    rw [roundRat_nat (by norm_num)]
    norm_num
  · rcases le_or_gt m (2 ^ 24) with hm' | hm'
    · rw [← roundRat_nat hm']
      refine roundRat_mono hq ?_
      rw [div_le_iff₀ hp]
      have := sum_le_max hm
      rw [Nat.mul_comm] at this
      exact_mod_cast this
    · refine le_trans (roundRat_mono hq (show _ ≤ ((2 ^ 24 : ℕ) : ℚ) by exact_mod_cast hle)) ?_
      rw [roundRat_nat (by norm_num)]
      exact_mod_cast hm'.le
  · have hs := min_le_sum hm
    have hm' : m ≤ 2 ^ 24 := by
      have : 1 ≤ L.length := Nat.pos_of_ne_zero hn
      nlinarith
    rw [← roundRat_nat hm']
    refine roundRat_mono (by positivity) ?_
    rw [le_div_iff₀ hp]
    rw [Nat.mul_comm] at hs
    exact_mod_cast hs

/-- C54, for tries with up to 2^24 leaves whose depths add up to at most 2^24: the average leaf depth is
the correctly rounded average and lies between the least and the greatest depth; the reported lowest
depth is at least the average. -/
theorem C54_small_partial (t : Trie α) (name : Option String) (h1 : (t.nodes 0).length < 2 ^ 64)
    (h2 : ((t.nodes 0).map (·.2)).sum < 2 ^ 64) (h0 : depthsOf (t.nodes 0) .leaf ≠ [])
    (h3 : (depthsOf (t.nodes 0) .leaf).length ≤ 2 ^ 24) (h4 : (depthsOf (t.nodes 0) .leaf).sum ≤ 2 ^ 24) :
    ∃ s q, trieStats P t name = .ok s ∧ s.avgLeaf = .fin q ∧ F32.Rep q ∧
      (∀ y, F32.Rep y → |q - (depthsOf (t.nodes 0) .leaf).sum / (depthsOf (t.nodes 0) .leaf).length| ≤
        |y - (depthsOf (t.nodes 0) .leaf).sum / (depthsOf (t.nodes 0) .leaf).length|) ∧
      (∀ m : ℕ, (∀ x ∈ depthsOf (t.nodes 0) .leaf, m ≤ x) → (m : ℚ) ≤ q) ∧ q ≤ s.lowestDepth := by
  obtain ⟨q, e, r, n, b1, b2⟩ := average_small h0 h3 h4
  refine ⟨_, q, C39_stats t name h1 h2, e, r, n, b2, ?_⟩
  refine b1 _ fun x hx => ?_
  exact le_trans (le_foldr_max hx) (le_max_left _ _)

/-- C54: the percentages printed for the kinds of nodes are finite, between 0 and 100, and exact up to a
relative error of `6 * 2 ^ -24`. -/
theorem C54_percent (t : Trie α) (name : Option String) (h1 : (t.nodes 0).length < 2 ^ 64)
    (h2 : ((t.nodes 0).map (·.2)).sum < 2 ^ 64) :
    ∃ s tot, trieStats P t name = .ok s ∧ s.counts.total P = .ok tot ∧ tot = (t.nodes 0).length ∧
      ∀ ty, ∃ q : ℚ, nodePerc (t.count ty) tot = .fin q ∧ 0 ≤ q ∧ q ≤ 100 ∧
        |q - 100 * (t.count ty / (t.nodes 0).length)| ≤
          100 * (t.count ty / (t.nodes 0).length) * (6 / 2 ^ 24) := by
  have hl := nodes_length t 0
  have hs := (depthsOf_sum (t.nodes 0)).1
  have ht := C39_total (P := P) t h1
  refine ⟨_, _, C39_stats t name h1 h2, ht, hl.symm, fun ty => ?_⟩
  have hty : t.count ty ≤ (t.nodes 0).length := by
    unfold Trie.count; cases ty <;> omega
  have e : 1 + 16 * t.count .branch + t.count .ext = (t.nodes 0).length := hl.symm
  have hne : (t.nodes 0).length ≠ 0 := by omega
  rw [e]
  unfold nodePerc
  rw [perc_counters (by omega) h1, if_neg hne]
  have b := perc_le hty hne
  exact ⟨_, rfl, b.1, b.2, close_perc h1 hne⟩

/-- A percentage that is at most 100, if there is one. -/
def AtMost100 (x : F32) : Prop := x = .nan ∨ ∃ q : ℚ, x = .fin q ∧ 0 ≤ q ∧ q ≤ 100

theorem percOf_le {a b : ℕ} (h : a ≤ b) (hb : b < 2 ^ 64) :
    AtMost100 (percOf (F32.ofNat a) (F32.ofNat b)) := by
  unfold percOf
  rw [perc_counters (by omega) hb]
  split_ifs with h0 h3
  · exact .inl rfl
  · omega
  · have := perc_le h h0
    exact .inr ⟨_, rfl, this.1, this.2⟩

/-- C54: the percentage of two counters is finite exactly if the second is not zero. -/
theorem C54_finite {a b : ℕ} (ha : a < 2 ^ 64) (hb : b < 2 ^ 64) :
    (b = 0 → percOf (F32.ofNat a) (F32.ofNat b) = if a = 0 then .nan else .inf) ∧
    (b ≠ 0 → ∃ q : ℚ, percOf (F32.ofNat a) (F32.ofNat b) = .fin q ∧
      |q - 100 * (a / b)| ≤ 100 * (a / b) * (6 / 2 ^ 24)) := by
  unfold percOf
  rw [perc_counters ha hb]
  constructor
  · intro h0
    rw [if_pos h0]
  · intro h0
    rw [if_neg h0]
    exact ⟨_, rfl, close_perc hb h0⟩

/-- C54: a comparison of two tries shows, for the one and then the other, the number of nodes of each
kind, the greatest depth and the average depths. -/
theorem C54_comparison (t : Trie α) (u : Trie β) (name name' : Option String)
    (h1 : (t.nodes 0).length < 2 ^ 64) (h2 : ((t.nodes 0).map (·.2)).sum < 2 ^ 64)
    (h3 : (u.nodes 0).length < 2 ^ 64) (h4 : ((u.nodes 0).map (·.2)).sum < 2 ^ 64) :
    ∃ x y n d, trieStats P t name = .ok x ∧ trieStats P u name' = .ok y ∧ x.compare P y = .ok (n, d) ∧
      n.tot = ((t.nodes 0).length, (u.nodes 0).length) ∧
      n.nonEmpty = ((t.nodes 0).length - (depthsOf (t.nodes 0) .empty).length,
        (u.nodes 0).length - (depthsOf (u.nodes 0) .empty).length) ∧
      n.empty = ((depthsOf (t.nodes 0) .empty).length, (depthsOf (u.nodes 0) .empty).length) ∧
      n.hash = ((depthsOf (t.nodes 0) .hash).length, (depthsOf (u.nodes 0) .hash).length) ∧
      n.branch = ((depthsOf (t.nodes 0) .branch).length, (depthsOf (u.nodes 0) .branch).length) ∧
      n.ext = ((depthsOf (t.nodes 0) .ext).length, (depthsOf (u.nodes 0) .ext).length) ∧
      n.leaf = ((depthsOf (t.nodes 0) .leaf).length, (depthsOf (u.nodes 0) .leaf).length) ∧
      d.lowest = ((depthsOf (t.nodes 0) .leaf ++ depthsOf (t.nodes 0) .hash).foldr max 0,
        (depthsOf (u.nodes 0) .leaf ++ depthsOf (u.nodes 0) .hash).foldr max 0) ∧
      IsAverage (depthsOf (t.nodes 0) .leaf) (avgOf d.avgLeaf.1) ∧
      IsAverage (depthsOf (u.nodes 0) .leaf) (avgOf d.avgLeaf.2) ∧
      IsAverage (depthsOf (t.nodes 0) .hash) (avgOf d.avgHash.1) ∧
      IsAverage (depthsOf (u.nodes 0) .hash) (avgOf d.avgHash.2) := by
  have hmax : ∀ L L' : List ℕ, max (L.foldr max 0) (L'.foldr max 0) = (L ++ L').foldr max 0 := by
    intro L L'
    induction L with
    | nil => simp
    | cons a L ih => simp only [List.foldr_cons, List.cons_append, ← ih]; omega
  have hne : ∀ {γ : Type} (v : Trie γ), (v.nodes 0).length < 2 ^ 64 →
      (NodeCounts.mk (v.count .empty) (v.count .hash) (v.count .branch) (v.count .ext)
        (v.count .leaf)).totalNonEmpty P =
        .ok ((v.nodes 0).length - (depthsOf (v.nodes 0) .empty).length) := by
    intro γ v hv
    have hs := (depthsOf_sum (v.nodes 0)).1
    clear h1 h2 h3 h4
    simp only [NodeCounts.totalNonEmpty, NodeCounts.hashAndLeaf, Trie.count]
    rw [uadd_fits (by omega), R_bind_ok, uadd_fits (by omega), R_bind_ok, uadd_fits (by omega)]
    congr 1
    omega
  have ex := C39_stats (P := P) t name h1 h2
  have ey := C39_stats (P := P) u name' h3 h4
  have e : ∀ x y : TrieStats,
      x.counts = ⟨t.count .empty, t.count .hash, t.count .branch, t.count .ext, t.count .leaf⟩ →
      y.counts = ⟨u.count .empty, u.count .hash, u.count .branch, u.count .ext, u.count .leaf⟩ →
      x.compare P y = .ok (⟨((t.nodes 0).length, (u.nodes 0).length),
        ((t.nodes 0).length - (depthsOf (t.nodes 0) .empty).length,
          (u.nodes 0).length - (depthsOf (u.nodes 0) .empty).length),
        (t.count .empty, u.count .empty), (t.count .hash, u.count .hash),
        (t.count .branch, u.count .branch), (t.count .ext, u.count .ext),
        (t.count .leaf, u.count .leaf)⟩, x.compareDepths y) := by
    intro x y hx hy
    simp only [TrieStats.compare, NodeCounts.compare]
    rw [hx, hy, C39_total t h1, C39_total u h3, hne t h1, hne u h3]
    have l1 := nodes_length t 0
    have l2 := nodes_length u 0
    simp only [Trie.count] at *
    rw [← l1, ← l2]
    rfl
  refine ⟨_, _, _, _, ex, ey, e _ _ rfl rfl, rfl, rfl, rfl, rfl, rfl, rfl, rfl, ?_,
    isAverage _ (fits_sums t h1 h2 .leaf).1 (fits_sums t h1 h2 .leaf).2.1,
    isAverage _ (fits_sums u h3 h4 .leaf).1 (fits_sums u h3 h4 .leaf).2.1,
    isAverage _ (fits_sums t h1 h2 .hash).1 (fits_sums t h1 h2 .hash).2.2,
    isAverage _ (fits_sums u h3 h4 .hash).1 (fits_sums u h3 h4 .hash).2.2⟩
  simp only [TrieStats.compareDepths, hmax]

/-- C54: comparing a subset with the original, no percentage but those for hash nodes and average
depths is above 100. -/
theorem C54_view {kec : Bytes → H256} {p : Trie α} {t : Trie β} (h : p.ViewOf P kec t)
    (hc : t.Canonical) (h1 : (t.nodes 0).length < 2 ^ 64) (h2 : ((t.nodes 0).map (·.2)).sum < 2 ^ 64)
    (name name' : Option String) :
    ∃ x y n d, trieStats P p name = .ok x ∧ trieStats P t name' = .ok y ∧ x.compare P y = .ok (n, d) ∧
      ∀ r ∈ [n.tot, n.nonEmpty, n.empty, n.branch, n.ext, n.leaf, d.lowest],
        AtMost100 (percOf (F32.ofNat r.1) (F32.ofNat r.2)) := by
  obtain ⟨x, y, n, d, e1, e2, e3, g1, g2, g3, g4, g5, g6, -, g8, -⟩ := C51_view h hc h1 h2 name name'
  refine ⟨x, y, n, d, e1, e2, e3, ?_⟩
  have hs := depthsOf_sum (t.nodes 0)
  have hl := nodes_length t 0
  have ht := C39_total (P := P) t h1
  have hlow : y.lowestDepth < 2 ^ 64 := by
    rw [C39_stats t name' h1 h2] at e2
    cases e2
    have key : ∀ L : List ℕ, L.foldr max 0 ≤ L.sum := by
      intro L
      induction L with
      | nil => simp
      | cons a L ih => simp only [List.foldr_cons, List.sum_cons]; omega
    have := key (depthsOf (t.nodes 0) .leaf)
    have := key (depthsOf (t.nodes 0) .hash)
    show max _ _ < _
    omega
  have hy : y.counts = ⟨t.count .empty, t.count .hash, t.count .branch, t.count .ext, t.count .leaf⟩ := by
    rw [C39_stats t name' h1 h2] at e2
    cases e2
    rfl
  have hb : n.tot.2 < 2 ^ 64 ∧ n.nonEmpty.2 < 2 ^ 64 ∧ n.empty.2 < 2 ^ 64 ∧ n.branch.2 < 2 ^ 64 ∧
      n.ext.2 < 2 ^ 64 ∧ n.leaf.2 < 2 ^ 64 ∧ d.lowest.2 < 2 ^ 64 := by
    simp only [TrieStats.compare, NodeCounts.compare, R_bind_eq_ok, R_pure] at e3
    obtain ⟨_, ⟨_, _, tt, et, _, _, nn, en, e5⟩, e4⟩ := e3
    rw [hy, ht] at et
    cases et
    have hne : nn < 2 ^ 64 := by
      rw [hy] at en
      simp only [NodeCounts.totalNonEmpty, NodeCounts.hashAndLeaf] at en
      simp only [Trie.count] at en
      rw [uadd_fits (by omega), R_bind_ok, uadd_fits (by omega), R_bind_ok, uadd_fits (by omega)] at en
      cases en
      omega
    cases e5; cases e4
    rw [hy]
    simp only [TrieStats.compareDepths, Trie.count]
    simp only [Trie.count] at *
    refine ⟨?_, hne, ?_, ?_, ?_, ?_, hlow⟩ <;> omega
  obtain ⟨b1, b2, b3, b4, b5, b6, b7⟩ := hb
  intro r hr
  simp only [List.mem_cons, List.not_mem_nil, or_false] at hr
  rcases hr with rfl | rfl | rfl | rfl | rfl | rfl | rfl
  · exact percOf_le g1 b1
  · exact percOf_le g2 b2
  · exact percOf_le g3 b3
  · exact percOf_le g4 b4
  · exact percOf_le g5 b5
  · exact percOf_le g6 b6
  · exact percOf_le g8 b7

/-! ### Counterexamples -/

/-- All paths are `d` branches long; each branch has `n` children. -/
def fullTrie (n : ℕ) : ℕ → Trie Unit
  | 0 => .leaf () ⟨0, 0⟩ [1]
  | d + 1 => .branch () (fun i => if i.val < n then fullTrie n d else .empty ()) []

theorem sum_children {n c : ℕ} (h : n ≤ 16) :
    ((List.finRange 16).map fun i : Fin 16 => if i.val < n then c else 0).sum = n * c := by
  interval_cases n <;> simp [List.finRange_succ] <;> omega

theorem flatten_length' {γ : Type} (is : List (Fin 16)) (f : Fin 16 → List γ) :
    (is.map f).flatten.length = (is.map fun i => (f i).length).sum := by
  induction is with
  | nil => rfl
  | cons i is ih => simp only [List.map_cons, List.flatten_cons, List.length_append, List.sum_cons, ih]

theorem fullTrie_depths {n : ℕ} (hn : n ≤ 16) (hn2 : 2 ≤ n) (d : ℕ) : ∀ k,
    depthsOf ((fullTrie n d).nodes k) .leaf = List.replicate (n ^ d) (k + d) ∧
    (depthsOf ((fullTrie n d).nodes k) .branch).length + 1 ≤ n ^ d ∧
    depthsOf ((fullTrie n d).nodes k) .ext = [] ∧ depthsOf ((fullTrie n d).nodes k) .hash = [] ∧
    ∀ x ∈ (fullTrie n d).nodes k, x.2 ≤ k + d := by
  induction d with
  | zero =>
    intro k
    simp [fullTrie, Trie.nodes, depthsOf, Trie.type]
  | succ d ih =>
    intro k
    have hch : (fullTrie n (d + 1)).nodes k = [(fullTrie n (d + 1), k)] ++
        ((List.finRange 16).map fun i : Fin 16 =>
          (if i.val < n then fullTrie n d else .empty ()).nodes (k + 1)).flatten := rfl
    have one : ∀ ty, depthsOf [(fullTrie n (d + 1), k)] ty = if ty = .branch then [k] else [] := by
      intro ty; cases ty <;> simp [depthsOf, fullTrie, Trie.type]
    have emp : ∀ ty, ty ≠ NodeType.empty →
        depthsOf ((Trie.empty () : Trie Unit).nodes (k + 1)) ty = [] := by
      intro ty; cases ty <;> simp [depthsOf, Trie.nodes, Trie.type]
    obtain ⟨i1, i2, i3, i4, i5⟩ := ih (k + 1)
    have hlen : ∀ ty, ty ≠ NodeType.empty → (((List.finRange 16).map fun i : Fin 16 => depthsOf
        ((if i.val < n then fullTrie n d else .empty ()).nodes (k + 1)) ty).flatten).length =
        n * (depthsOf ((fullTrie n d).nodes (k + 1)) ty).length := by
      intro ty hty
      rw [flatten_length', ← sum_children hn]
      congr 1
      refine List.map_congr_left fun i _ => ?_
      split_ifs with h
      · rfl
      · rw [emp ty hty]; rfl
    have hnil : ∀ ty, ty ≠ NodeType.empty → depthsOf ((fullTrie n d).nodes (k + 1)) ty = [] →
        ((List.finRange 16).map fun i : Fin 16 => depthsOf
        ((if i.val < n then fullTrie n d else .empty ()).nodes (k + 1)) ty).flatten = [] := by
      intro ty hty h
      have := hlen ty hty
      rw [h] at this
      exact List.length_eq_zero_iff.1 (by simpa using this)
    refine ⟨?_, ?_, ?_, ?_, ?_⟩
    · rw [hch, depthsOf_append, depthsOf_flatten, one, if_neg (by decide), List.nil_append,
        List.eq_replicate_iff]
      refine ⟨by rw [hlen _ (by decide), i1, List.length_replicate, pow_succ, Nat.mul_comm], fun x hx => ?_⟩
      simp only [List.mem_flatten, List.mem_map] at hx
      obtain ⟨l, ⟨i, -, rfl⟩, hx⟩ := hx
      split_ifs at hx with h
      · rw [i1] at hx
        have := (List.mem_replicate.1 hx).2
        omega
      · rw [emp _ (by decide)] at hx; cases hx
    · rw [hch, depthsOf_append, depthsOf_flatten, one, if_pos rfl, List.length_append,
        hlen _ (by decide), pow_succ, Nat.mul_comm]
      simp only [List.length_singleton]
      nlinarith
    · rw [hch, depthsOf_append, depthsOf_flatten, one, if_neg (by decide), hnil _ (by decide) i3]; rfl
    · rw [hch, depthsOf_append, depthsOf_flatten, one, if_neg (by decide), hnil _ (by decide) i4]; rfl
    · intro x hx
      rw [hch] at hx
      simp only [List.mem_append, List.mem_singleton, List.mem_flatten, List.mem_map] at hx
      rcases hx with rfl | ⟨l, ⟨i, -, rfl⟩, hx⟩
      · omega
      · split_ifs at hx with h
        · have := i5 x hx; omega
        · simp only [Trie.nodes, List.mem_singleton] at hx
          subst hx; simp only; omega

theorem fullTrie_canonical {n : ℕ} (hn2 : 2 ≤ n) (d : ℕ) :
    (fullTrie n d).Canonical ∧ (fullTrie n d).Occupied := by
  induction d with
  | zero => exact ⟨trivial, trivial⟩
  | succ d ih =>
    refine ⟨⟨fun i => ?_, .inl ⟨0, 1, by decide, ?_, ?_⟩⟩, trivial⟩
    · beta_reduce
      split_ifs
      · exact ih.1
      · trivial
    · beta_reduce; rw [if_pos (by show 0 < n; omega)]; exact ih.2
    · beta_reduce; rw [if_pos (by show 1 < n; omega)]; exact ih.2

/-- A branch with two children. -/
def twoTries (a b : Trie Unit) : Trie Unit :=
  .branch () (fun i => if i = 0 then a else if i = 1 then b else .empty ()) []

theorem twoTries_nodes (a b : Trie Unit) : (twoTries a b).nodes 0 = [(twoTries a b, 0)] ++
    (a.nodes 1 ++ (b.nodes 1 ++ List.replicate 14 (.empty (), 1))) := by
  have : (twoTries a b).nodes 0 = (twoTries a b, 0) :: ((List.finRange 16).map fun i : Fin 16 =>
    (if i = 0 then a else if i = 1 then b else .empty ()).nodes (0 + 1)).flatten := rfl
  rw [this]
  simp [List.finRange_succ, Trie.nodes, List.replicate]

theorem twoTries_canonical {a b : Trie Unit} (ha : a.Canonical ∧ a.Occupied)
    (hb : b.Canonical ∧ b.Occupied) : (twoTries a b).Canonical := by
  refine ⟨fun i => ?_, .inl ⟨0, 1, by decide, ha.2, hb.2⟩⟩
  beta_reduce
  split_ifs
  · exact ha.1
  · exact hb.1
  · trivial

/-- A trie with `16 ^ 6 + 3 ^ 6` leaves, all at depth 7. -/
def bigTrie : Trie Unit := twoTries (fullTrie 16 6) (fullTrie 3 6)

theorem bigTrie_nodes : bigTrie.nodes 0 = [(bigTrie, 0)] ++ ((fullTrie 16 6).nodes 1 ++
    ((fullTrie 3 6).nodes 1 ++ List.replicate 14 (.empty (), 1))) := by
  unfold bigTrie
  exact twoTries_nodes _ _

theorem bigTrie_type : bigTrie.type = .branch := by
  unfold bigTrie twoTries
  rfl

theorem bigTrie_leaves : depthsOf (bigTrie.nodes 0) .leaf = List.replicate (2 ^ 24 + 729) 7 := by
  rw [bigTrie_nodes]
  simp only [depthsOf_append]
  rw [(fullTrie_depths (n := 16) (by norm_num) (by norm_num) 6 1).1,
    (fullTrie_depths (n := 3) (by norm_num) (by norm_num) 6 1).1]
  have h1 : depthsOf [(bigTrie, 0)] .leaf = [] := by simp [depthsOf, bigTrie_type]
  have h2 : depthsOf (List.replicate 14 ((.empty () : Trie Unit), 1)) .leaf = [] := by
    simp [depthsOf, Trie.type]
  have e : 16 ^ 6 + 3 ^ 6 = 2 ^ 24 + 729 := by norm_num
  rw [h1, h2, List.nil_append, List.append_nil, List.replicate_append_replicate, e]

theorem twoTries_fits {a b : Trie Unit} {n m d : ℕ} (hn : n ≤ 2 ^ 24) (hm : m ≤ 2 ^ 24) (hd : d < 2 ^ 10)
    (a2 : (depthsOf (a.nodes 1) .branch).length + 1 ≤ n) (a3 : depthsOf (a.nodes 1) .ext = [])
    (a4 : depthsOf (a.nodes 1) .hash = []) (a5 : ∀ x ∈ a.nodes 1, x.2 ≤ 1 + d)
    (b2 : (depthsOf (b.nodes 1) .branch).length + 1 ≤ m) (b3 : depthsOf (b.nodes 1) .ext = [])
    (b4 : depthsOf (b.nodes 1) .hash = []) (b5 : ∀ x ∈ b.nodes 1, x.2 ≤ 1 + d) :
    ((twoTries a b).nodes 0).length < 2 ^ 64 ∧ (((twoTries a b).nodes 0).map (·.2)).sum < 2 ^ 64 ∧
      depthsOf ((twoTries a b).nodes 0) .hash = [] := by
  have na := nodes_length a 1
  have nb := nodes_length b 1
  rw [a3] at na
  rw [b3] at nb
  simp only [List.length_nil] at na nb
  have hlen : ((twoTries a b).nodes 0).length < 2 ^ 32 := by
    rw [twoTries_nodes]
    simp only [List.length_append, List.length_singleton, List.length_replicate]
    omega
  refine ⟨by omega, ?_, ?_⟩
  · refine lt_of_le_of_lt (sum_le_max (m := 2 ^ 10) fun x hx => ?_) (by rw [List.length_map]; omega)
    simp only [List.mem_map] at hx
    obtain ⟨y, hy, rfl⟩ := hx
    rw [twoTries_nodes] at hy
    simp only [List.mem_append, List.mem_singleton, List.mem_replicate] at hy
    rcases hy with rfl | hy | hy | ⟨-, rfl⟩
    · simp
    · have := a5 y hy; omega
    · have := b5 y hy; omega
    · simp
  · rw [twoTries_nodes]
    simp only [depthsOf_append, a4, b4]
    simp [depthsOf, twoTries, Trie.type]

theorem bigTrie_fits : (bigTrie.nodes 0).length < 2 ^ 64 ∧
    ((bigTrie.nodes 0).map (·.2)).sum < 2 ^ 64 ∧ depthsOf (bigTrie.nodes 0) .hash = [] := by
  obtain ⟨-, a2, a3, a4, a5⟩ := fullTrie_depths (n := 16) (by norm_num) (by norm_num) 6 1
  obtain ⟨-, b2, b3, b4, b5⟩ := fullTrie_depths (n := 3) (by norm_num) (by norm_num) 6 1
  unfold bigTrie
  exact twoTries_fits (by norm_num) (by norm_num) (by norm_num) a2 a3 a4 a5 b2 b3 b4 b5

theorem bigTrie_canonical : bigTrie.Canonical := by
  unfold bigTrie
  exact twoTries_canonical (fullTrie_canonical (by norm_num) 6) (fullTrie_canonical (by norm_num) 6)

theorem foldr_max_replicate {n m : ℕ} (h : n ≠ 0) : (List.replicate n m).foldr max 0 = m := by
  refine le_antisymm ?_ ?_
  · rw [foldr_max_le]; intro x hx; rw [(List.mem_replicate.1 hx).2]
  · exact le_foldr_max (List.mem_replicate.2 ⟨h, rfl⟩)

/-- C54 fails for the averages: without hash nodes the average hash depth is not a number; and there is
a canonical trie whose leaves are all at depth 7, the lowest depth, but whose average leaf depth is
larger. -/
theorem C54_false :
    (∃ (t : Trie Unit) (s : TrieStats), trieStats .release t none = .ok s ∧ s.avgHash = .nan) ∧
    ∃ (t : Trie Unit) (s : TrieStats) (q : ℚ), t.Canonical ∧ (∀ d ∈ depthsOf (t.nodes 0) .leaf, d = 7) ∧
      trieStats .release t none = .ok s ∧ s.lowestDepth = 7 ∧ s.avgLeaf = .fin q ∧ 7 < q := by
  refine ⟨⟨.leaf () ⟨0, 0⟩ [1], ⟨none, ⟨0, 0, 0, 0, 1⟩, 0, 0, 0⟩, by decide +kernel, by decide +kernel⟩, ?_⟩
  obtain ⟨f1, f2, f3⟩ := bigTrie_fits
  have hs := C39_stats (P := .release) bigTrie none f1 f2
  have hq : F32.div (F32.ofNat (7 * (2 ^ 24 + 729))) (F32.ofNat (2 ^ 24 + 729)) =
      .fin (7 + 1 / 2 ^ 21) := by decide +kernel
  refine ⟨bigTrie, _, 7 + 1 / 2 ^ 21, bigTrie_canonical, fun d hd => ?_, hs, ?_, ?_, by norm_num⟩
  · rw [bigTrie_leaves] at hd
    exact (List.mem_replicate.1 hd).2
  · show max _ _ = 7
    rw [f3, bigTrie_leaves, foldr_max_replicate (by norm_num)]
    rfl
  · show F32.div (F32.ofNat _) (F32.ofNat (depthsOf _ _).length) = _
    rw [bigTrie_leaves, List.sum_replicate_nat, List.length_replicate, Nat.mul_comm]
    exact hq

/-! ### Examples -/

-- C54: an average and a percentage that are not exact.
example : F32.div (F32.ofNat 7) (F32.ofNat 3) = .fin (7 / 3 - 1 / 3 / 2 ^ 22) := by decide +kernel
example : nodePerc 1 3 = .fin (100 / 3 + 1 / 3 / 2 ^ 17) := by decide +kernel

end EthTrie
