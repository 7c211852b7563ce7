import Verif.Trie.Model

/-!
# Model of `src/debug_tools/stats.rs`

The division of the depth sums by the counts to `f32` averages and the `Display` implementations are
modelled in `Verif/Debug/StatsShow.lean`; here the sums themselves are part of the result.
-/

namespace EthTrie

/-- `struct NodeCounts` (`src/debug_tools/stats.rs:43-50`). -/
structure NodeCounts where
  empty : Nat
  hash : Nat
  branch : Nat
  ext : Nat
  leaf : Nat
  deriving DecidableEq, Repr

/-- `struct CurrTrackingState` (`src/debug_tools/stats.rs:198-207`). -/
structure StatState where
  counts : NodeCounts
  leafDepthSum : Nat
  hashDepthSum : Nat
  lowestDepth : Nat
  deriving DecidableEq, Repr

/-- `Default` (derived) (`src/debug_tools/stats.rs:199-200`). -/
def StatState.init : StatState := ⟨⟨0, 0, 0, 0, 0⟩, 0, 0, 0⟩

/-- `update_lowest_depth_if_larger` (`src/debug_tools/stats.rs:209-215`). -/
def StatState.lower (st : StatState) (d : Nat) : StatState :=
  if st.lowestDepth < d then { st with lowestDepth := d } else st

/-- The loop `for c in children` (`src/debug_tools/stats.rs:286-288`). -/
def forChildren {σ : Type} (f : Fin 16 → σ → R σ) : List (Fin 16) → σ → R σ
  | [], st => .ok st
  | i :: is, st => do
    let st ← f i st
    forChildren f is st

/-- `get_trie_stats_rec` (`src/debug_tools/stats.rs:269-303`). -/
def statsRec {α : Type} (P : Profile) : Trie α → StatState → Nat → R StatState
  | .empty _, st, _ => do
    let n ← uadd P st.counts.empty 1
    return { st with counts := { st.counts with empty := n } }
  | .hash _ _, st, d => do
    let n ← uadd P st.counts.hash 1
    let s ← uadd P st.hashDepthSum d
    return StatState.lower { st with counts := { st.counts with hash := n }, hashDepthSum := s } d
  | .branch _ cs _, st, d => do
    let n ← uadd P st.counts.branch 1
    forChildren (fun i st => do
      let d' ← uadd P d 1
      statsRec P (cs i) st d') (List.finRange 16) { st with counts := { st.counts with branch := n } }
  | .ext _ _ c, st, d => do
    let n ← uadd P st.counts.ext 1
    let d' ← uadd P d 1
    statsRec P c { st with counts := { st.counts with ext := n } } d'
  | .leaf _ _ _, st, d => do
    let n ← uadd P st.counts.leaf 1
    let s ← uadd P st.leafDepthSum d
    return StatState.lower { st with counts := { st.counts with leaf := n }, leafDepthSum := s } d

/-- `struct TrieStats` and `struct DepthStats` (`src/debug_tools/stats.rs:12-17, 217-223`), with the
dividends of the averages instead of the averages (the divisors are `counts.leaf`, `counts.hash`). -/
structure TrieStats where
  name : Option String
  counts : NodeCounts
  lowestDepth : Nat
  leafDepthSum : Nat
  hashDepthSum : Nat
  deriving DecidableEq, Repr

/-- `get_trie_stats_common` (`src/debug_tools/stats.rs:243-267`). -/
def trieStats {α : Type} (P : Profile) (t : Trie α) (name : Option String) : R TrieStats := do
  let st ← statsRec P t .init 0
  return ⟨name, st.counts, st.lowestDepth, st.leafDepthSum, st.hashDepthSum⟩

/-- `hash_and_leaf_node_count` (`src/debug_tools/stats.rs:85-87`). -/
def NodeCounts.hashAndLeaf (P : Profile) (c : NodeCounts) : R Nat := uadd P c.hash c.leaf

/-- `total_node_non_empty` (`src/debug_tools/stats.rs:81-83`). -/
def NodeCounts.totalNonEmpty (P : Profile) (c : NodeCounts) : R Nat := do
  uadd P (← uadd P c.branch c.ext) (← c.hashAndLeaf P)

/-- `total_nodes` (`src/debug_tools/stats.rs:77-79`). -/
def NodeCounts.total (P : Profile) (c : NodeCounts) : R Nat := do
  uadd P c.empty (← c.totalNonEmpty P)

/-- `struct NodeComparison` (`src/debug_tools/stats.rs:119-130`); a `RatioStat` is a pair. -/
structure NodeComparison where
  tot : Nat × Nat
  nonEmpty : Nat × Nat
  empty : Nat × Nat
  hash : Nat × Nat
  branch : Nat × Nat
  ext : Nat × Nat
  leaf : Nat × Nat
  deriving DecidableEq, Repr

/-- `NodeCounts::compare` (`src/debug_tools/stats.rs:89-103`). -/
def NodeCounts.compare (P : Profile) (a b : NodeCounts) : R NodeComparison := do
  return ⟨(← a.total P, ← b.total P), (← a.totalNonEmpty P, ← b.totalNonEmpty P),
    (a.empty, b.empty), (a.hash, b.hash), (a.branch, b.branch), (a.ext, b.ext), (a.leaf, b.leaf)⟩

/-- `struct DepthComparison` (`src/debug_tools/stats.rs:145-150`); instead of each average there is its
dividend and its divisor. -/
structure DepthComparison where
  lowest : Nat × Nat
  avgLeaf : (Nat × Nat) × (Nat × Nat)
  avgHash : (Nat × Nat) × (Nat × Nat)
  deriving DecidableEq, Repr

/-- `DepthStats::compare` (`src/debug_tools/stats.rs:233-241`). -/
def TrieStats.compareDepths (a b : TrieStats) : DepthComparison :=
  ⟨(a.lowestDepth, b.lowestDepth),
    ((a.leafDepthSum, a.counts.leaf), (b.leafDepthSum, b.counts.leaf)),
    ((a.hashDepthSum, a.counts.hash), (b.hashDepthSum, b.counts.hash))⟩

/-- `TrieStats::compare` and `struct TrieComparison` (`src/debug_tools/stats.rs:33-40, 105-110`). -/
def TrieStats.compare (P : Profile) (a b : TrieStats) : R (NodeComparison × DepthComparison) := do
  return (← a.counts.compare P b.counts, a.compareDepths b)

end EthTrie
