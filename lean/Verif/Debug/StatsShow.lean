import Verif.Debug.Stats
import Verif.Debug.Display
import Verif.Float.Model

/-!
# Averages, percentages and `Display` of the statistics (`src/debug_tools/stats.rs`)

`{:.p}` of an `f32` prints its exact value rounded to `p` decimals, ties to even, and `NaN` or `inf`
(library behaviour).  A precision has no effect on integers.
-/

namespace EthTrie

/-- The last `p` decimal digits of a number (for `src/debug_tools/stats.rs:72, 171, 228-229`). -/
def padDigits : Nat → Nat → Text
  | 0, _ => []
  | p + 1, n => padDigits p (n / 10) ++ [Nat.digitChar (n % 10)]

/-- `{:.p}` of an `f32`, for `p > 0` (`src/debug_tools/stats.rs:72, 171, 228-229`). -/
def F32.fixed (p : Nat) : F32 → Text
  | .nan => t!"NaN"
  | .inf => t!"inf"
  | .fin q =>
    let n := (roundEven (q * 10 ^ p)).toNat
    showNat (n / 10 ^ p) ++ t!"." ++ padDigits p n

/-- The field `avg_leaf_depth` set in `get_trie_stats_common` (`src/debug_tools/stats.rs:256-260`). -/
def TrieStats.avgLeaf (s : TrieStats) : F32 := F32.div (F32.ofNat s.leafDepthSum) (F32.ofNat s.counts.leaf)

/-- The field `avg_hash_depth` set in `get_trie_stats_common` (`src/debug_tools/stats.rs:256-260`). -/
def TrieStats.avgHash (s : TrieStats) : F32 := F32.div (F32.ofNat s.hashDepthSum) (F32.ofNat s.counts.hash)

/-- `perc` in `write_node_count_stats` (`src/debug_tools/stats.rs:71`). -/
def nodePerc (count tot : Nat) : F32 :=
  F32.mul (F32.div (F32.ofNat count) (F32.ofNat tot)) (F32.ofNat 100)

/-- `write_node_count_stats` (`src/debug_tools/stats.rs:64-74`). -/
def showNodeCount (name : Text) (count tot : Nat) : Text :=
  name ++ t!": " ++ showNat count ++ t!" (" ++ (nodePerc count tot).fixed 2 ++ t!"%)\n"

section
variable (P : Profile)

/-- `Display for NodeCounts` (`src/debug_tools/stats.rs:52-62`). -/
def NodeCounts.show (c : NodeCounts) : R Text := do
  let tot ← c.total P
  return showNodeCount t!"Empty" c.empty tot ++ showNodeCount t!"Hash" c.hash tot ++
    showNodeCount t!"Branch" c.branch tot ++ showNodeCount t!"Extension" c.ext tot ++
    showNodeCount t!"Leaf" c.leaf tot

/-- `Display for DepthStats` (`src/debug_tools/stats.rs:225-231`). -/
def TrieStats.showDepths (s : TrieStats) : Text :=
  t!"Lowest depth: " ++ showNat s.lowestDepth ++ t!"\n" ++
  t!"Average leaf depth: " ++ s.avgLeaf.fixed 3 ++ t!"\n" ++
  t!"Average hash depth: " ++ s.avgHash.fixed 3 ++ t!"\n"

/-- `Display for TrieStats` (`src/debug_tools/stats.rs:19-31`). -/
def TrieStats.show (s : TrieStats) : R Text := do
  let n := match s.name with
    | some name => t!" (" ++ name.toList ++ t!")\n"
    | none => t!"\n"
  return t!"Trie Stats:" ++ n ++ t!"Counts:\n" ++ (← s.counts.show P) ++ t!"\n" ++
    t!"Depth stats:\n" ++ s.showDepths ++ t!"\n"

end

/-- `get_a_over_b_perc` (`src/debug_tools/stats.rs:188-190`); `to_f32` (`192-194`) never fails. -/
def percOf (a b : F32) : F32 := F32.mul (F32.div a b) (F32.ofNat 100)

/-- `Display for RatioStat<usize>` (`src/debug_tools/stats.rs:167-179`). -/
def showRatio (x : Nat × Nat) : Text :=
  showNat x.1 ++ t!" / " ++ showNat x.2 ++ t!" (" ++
    (percOf (F32.ofNat x.1) (F32.ofNat x.2)).fixed 3 ++ t!"%)"

/-- `Display for RatioStat<f32>` (`src/debug_tools/stats.rs:167-179`). -/
def showRatioF (a b : F32) : Text :=
  a.fixed 3 ++ t!" / " ++ b.fixed 3 ++ t!" (" ++ (percOf a b).fixed 3 ++ t!"%)"

/-- `Display for NodeComparison` (`src/debug_tools/stats.rs:132-143`). -/
def NodeComparison.show (n : NodeComparison) : Text :=
  t!"Total nodes: " ++ showRatio n.tot ++ t!"\n" ++
  t!"Non-empty: " ++ showRatio n.nonEmpty ++ t!"\n" ++
  t!"Total empty: " ++ showRatio n.empty ++ t!"\n" ++
  t!"Total hash: " ++ showRatio n.hash ++ t!"\n" ++
  t!"Total branch: " ++ showRatio n.branch ++ t!"\n" ++
  t!"Total extension: " ++ showRatio n.ext ++ t!"\n" ++
  t!"Total leaf: " ++ showRatio n.leaf ++ t!"\n"

/-- The average with the given dividend and divisor (`src/debug_tools/stats.rs:258-259`). -/
def avgOf (x : Nat × Nat) : F32 := F32.div (F32.ofNat x.1) (F32.ofNat x.2)

/-- `Display for DepthComparison` (`src/debug_tools/stats.rs:152-158`). -/
def DepthComparison.show (d : DepthComparison) : Text :=
  t!"Lowest depth: " ++ showRatio d.lowest ++ t!"\n" ++
  t!"Avg leaf depth: " ++ showRatioF (avgOf d.avgLeaf.1) (avgOf d.avgLeaf.2) ++ t!"\n" ++
  t!"Avg hash depth: " ++ showRatioF (avgOf d.avgHash.1) (avgOf d.avgHash.2) ++ t!"\n"

/-- `Display for TrieComparison` (`src/debug_tools/stats.rs:112-117`). -/
def showComparison (c : NodeComparison × DepthComparison) : Text :=
  t!"Node comparison: " ++ c.1.show ++ t!"\n" ++ t!"Depth comparison: " ++ c.2.show ++ t!"\n"

end EthTrie
