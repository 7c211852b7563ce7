import Verif.Debug.Errors
import Verif.Debug.StatsShow
import Verif.Trie.Checked

/-!
# Builds with and without overflow checks: debugging tools and texts
-/

namespace EthTrie

open Nibbles

section
variable {α : Type} {kec : Bytes → H256}

theorem segmentOf_checked (t : Trie α) (k : Nibbles) :
    Checked (segmentOf .debug t k) (segmentOf .release t k) := by
  unfold segmentOf
  chk [getNibble_checked]

theorem pieceOrNext_checked (t : Trie α) (k : Nibbles) :
    Checked (pieceOrNext .debug t k) (pieceOrNext .release t k) := by
  unfold pieceOrNext
  chk [getNextNibbles_checked]

/-! ### Queries -/

theorem nextClamped_checked (k : Nibbles) (n : Nat) :
    Checked (nextClamped .debug k n) (nextClamped .release k n) := by
  unfold nextClamped
  chk [getNextNibbles_checked]

theorem queryRec_checked (t : Trie α) (k : Nibbles) (o : QueryOut) :
    Checked (queryRec .debug t k o) (queryRec .release t k o) := by
  induction t generalizing k o with
  | empty a => unfold queryRec; chk [pieceOrNext_checked, segmentOf_checked]
  | hash a h => unfold queryRec; chk [pieceOrNext_checked, segmentOf_checked]
  | leaf a n v =>
    unfold queryRec
    chk [pieceOrNext_checked, segmentOf_checked, nextClamped_checked, popNibblesFront_checked]
  | ext a n c ih => unfold queryRec; chk [pieceOrNext_checked, segmentOf_checked, nextClamped_checked, ih]
  | branch a cs v ih =>
    unfold queryRec
    chk [pieceOrNext_checked, segmentOf_checked, popNextFront_checked, ih]

theorem query_checked (t : Trie α) (k : Nibbles) : Checked (query .debug t k) (query .release t k) := by
  unfold query
  chk [queryRec_checked]

theorem getPathFromQuery_checked (t : Trie α) (q : DebugQuery) :
    Checked (getPathFromQuery .debug t q) (getPathFromQuery .release t q) := by
  unfold getPathFromQuery
  chk [query_checked]

/-! ### Statistics -/

theorem forChildren_checked {σ : Type} {f g : Fin 16 → σ → R σ} (h : ∀ i x, Checked (f i x) (g i x))
    (is : List (Fin 16)) (x : σ) : Checked (forChildren f is x) (forChildren g is x) := by
  induction is generalizing x with
  | nil => exact .refl _
  | cons i is ih => exact .bind (h i x) ih

theorem statsRec_checked (t : Trie α) (x : StatState) (d : Nat) :
    Checked (statsRec .debug t x d) (statsRec .release t x d) := by
  induction t generalizing x d with
  | empty a => unfold statsRec; chk []
  | hash a h => unfold statsRec; chk []
  | leaf a n v => unfold statsRec; chk []
  | ext a n c ih => unfold statsRec; chk [ih]
  | branch a cs v ih => unfold statsRec; chk [forChildren_checked, ih]

theorem trieStats_checked (t : Trie α) (name : Option String) :
    Checked (trieStats .debug t name) (trieStats .release t name) := by
  unfold trieStats
  chk [statsRec_checked]

theorem totalNonEmpty_checked (c : NodeCounts) : Checked (c.totalNonEmpty .debug) (c.totalNonEmpty .release) := by
  unfold NodeCounts.totalNonEmpty NodeCounts.hashAndLeaf
  chk []

theorem total_checked (c : NodeCounts) : Checked (c.total .debug) (c.total .release) := by
  unfold NodeCounts.total
  chk [totalNonEmpty_checked]

theorem compare_checked (a b : TrieStats) : Checked (a.compare .debug b) (a.compare .release b) := by
  unfold TrieStats.compare NodeCounts.compare
  chk [totalNonEmpty_checked, total_checked]

theorem statsShow_checked (s : TrieStats) : Checked (s.show .debug) (s.show .release) := by
  unfold TrieStats.show NodeCounts.show
  dsimp only
  chk [total_checked]

/-! ### Differences -/

theorem hashProg_checked (t : Trie α) : (hashProg .debug kec t).Checked (hashProg .release kec t) := by
  unfold hashProg hashTrie
  chkp [encodeNode_checked]

theorem diffPoint_checked (a b : Trie α) (k : Nibbles) (p : List PathSegment) :
    (diffPoint .debug kec a b k p).Checked (diffPoint .release kec a b k p) := by
  unfold diffPoint nodeInfo
  chkp [mergeNibbles_checked, hashProg_checked]

theorem replaceLonger_checked (x : Option DiffPoint) (a b : Trie α) (st : CallState) :
    (replaceLonger .debug kec x a b st).Checked (replaceLonger .release kec x a b st) := by
  unfold replaceLonger
  chkp [diffPoint_checked]

theorem fromParent_checked (st : CallState) (a : Trie α) (k : Nibbles) :
    Checked (fromParent .debug st a k) (fromParent .release st a k) := by
  unfold fromParent
  chk [segmentOf_checked, mergeNibbles_checked]

theorem diffOfHashes_checked (x y : H256) (a b : Trie α) (st : CallState) (ds : Longest) :
    (diffOfHashes .debug kec x y a b st ds).Checked (diffOfHashes .release kec x y a b st ds) := by
  unfold diffOfHashes
  chkp [replaceLonger_checked]

theorem diffOfHash_checked (a b : Trie α) (st : CallState) (ds : Longest) :
    (diffOfHash .debug kec a b st ds).Checked (diffOfHash .release kec a b st ds) := by
  unfold diffOfHash
  chkp [hashProg_checked, diffOfHashes_checked]

theorem diffChildren_checked {f g : Fin 16 → Longest → Prog α (DiffState × Longest)}
    (h : ∀ i x, (f i x).Checked (g i x)) (is : List (Fin 16)) (m : DiffState) (x : Longest) :
    (diffChildren f is m x).Checked (diffChildren g is m x) := by
  induction is generalizing m x with
  | nil => exact .refl _
  | cons i is ih => exact .bind' (h i x) fun _ => ih _ _

theorem diffTop_checked (a b : Trie α) (st : CallState) (ds : Longest)
    {p q : Prog α (DiffState × Longest)} (h : p.Checked q) :
    (diffTop .debug kec a b st ds p).Checked (diffTop .release kec a b st ds q) := by
  unfold diffTop
  chkp [hashProg_checked, replaceLonger_checked, h]

theorem diffRec_checked (a b : Trie α) (st : CallState) (ds : Longest) :
    (diffRec .debug kec a b st ds).Checked (diffRec .release kec a b st ds) := by
  induction a generalizing b st ds with
  | empty x => unfold diffRec; exact diffTop_checked _ _ _ _ (.refl _)
  | hash x h =>
    unfold diffRec
    refine diffTop_checked _ _ _ _ ?_
    chkp [fromParent_checked, diffOfHashes_checked]
  | leaf x n v =>
    unfold diffRec
    refine diffTop_checked _ _ _ _ ?_
    chkp [diffOfHash_checked]
  | ext x n c ih =>
    unfold diffRec
    refine diffTop_checked _ _ _ _ ?_
    chkp [fromParent_checked, ih]
  | branch x cs v ih =>
    unfold diffRec
    refine diffTop_checked _ _ _ _ ?_
    chkp [diffChildren_checked, fromParent_checked, diffOfHash_checked, ih]

theorem diff_checked (a b : Trie α) : (a.diff .debug kec b).Checked (a.diff .release kec b) := by
  unfold Trie.diff diffProg
  chkp [diffRec_checked]

/-! ### Texts -/

theorem show_checked (k : Nibbles) : Checked (k.show .debug) (k.show .release) := by
  unfold Nibbles.show
  chk [asHexStr_checked]

theorem debug_checked (k : Nibbles) : Checked (k.debug .debug) (k.debug .release) := by
  unfold Nibbles.debug
  chk [show_checked]

theorem segShow_checked (s : PathSegment) : Checked (s.show .debug) (s.show .release) := by
  unfold PathSegment.show
  chk [show_checked]

theorem showSegs_checked (l : List PathSegment) : Checked (showSegs .debug l) (showSegs .release l) := by
  induction l with
  | nil => exact .refl _
  | cons s l ih => unfold showSegs; chk [segShow_checked, ih]

theorem showPath_checked (l : List PathSegment) : Checked (showPath .debug l) (showPath .release l) := by
  unfold showPath
  chk [showSegs_checked, segShow_checked]

theorem infoShow_checked (i : NodeInfo) : Checked (i.show .debug) (i.show .release) := by
  unfold NodeInfo.show
  dsimp only
  chk [show_checked]

theorem showDiff_checked (d : Option DiffPoint) : Checked (showDiff .debug d) (showDiff .release d) := by
  unfold showDiff DiffPoint.show
  chk [showPath_checked, show_checked, infoShow_checked]

theorem showPiece_checked (p : QueryParams) (s : PathSegment) :
    Checked (showPiece .debug p s) (showPiece .release p s) := by
  unfold showPiece
  chk [show_checked]

theorem showNode_checked (p : QueryParams) (s : PathSegment) (e : Option ExtraInfo) :
    Checked (showNode .debug p s e) (showNode .release p s e) := by
  unfold showNode
  chk [showPiece_checked]

theorem showNodes_checked (p : QueryParams) (es : List (Option ExtraInfo)) (l : List PathSegment) (i : Nat) :
    Checked (showNodes .debug p es l i) (showNodes .release p es l i) := by
  induction l generalizing i with
  | nil => exact .refl _
  | cons s l ih => unfold showNodes; chk [showNode_checked, ih]

theorem queryShow_checked (o : QueryOutput) : Checked (o.show .debug) (o.show .release) := by
  unfold QueryOutput.show showHeader
  dsimp only
  chk [show_checked, showNodes_checked, showNode_checked]

theorem errorShow_checked (x : Text) (e : SubsetError) : Checked (e.show .debug x) (e.show .release x) := by
  unfold SubsetError.show
  chk [show_checked]

theorem progCollect_checked {β : Type} (n : Nat) {f g : Fin n → Prog α β} (h : ∀ i, (f i).Checked (g i)) :
    (Prog.collect n f).Checked (Prog.collect n g) := by
  induction n with
  | zero => exact .refl _
  | succ n ih =>
    unfold Prog.collect
    exact .bind' (h _) fun _ => .bind' (ih fun i => h _) fun _ => .refl _

theorem trieDebug_checked (cached : Bool) (t : Trie α) :
    (t.debug cached .debug).Checked (t.debug cached .release) := by
  induction t with
  | empty a => exact .refl _
  | hash a h => exact .refl _
  | leaf a n v => unfold Trie.debug; chkp [debug_checked]
  | ext a n c ih => unfold Trie.debug; chkp [debug_checked, ih]
  | branch a cs v ih => unfold Trie.debug; chkp [progCollect_checked, ih]

theorem debugInfo_checked (cached : Bool) (u : Trie α) (b : Bool) (x : Text) :
    (Tracked.debugInfo cached .debug u b x).Checked (Tracked.debugInfo cached .release u b x) := by
  unfold Tracked.debugInfo
  chkp [trieDebug_checked]

theorem trackedDebug_checked (cached : Bool) (t : Tracked α) :
    (t.debug cached .debug).Checked (t.debug cached .release) := by
  induction t with
  | empty u b => unfold Tracked.debug; chkp [debugInfo_checked]
  | hash u b => unfold Tracked.debug; chkp [debugInfo_checked]
  | leaf u b => unfold Tracked.debug; chkp [debugInfo_checked]
  | ext u b c ih => unfold Tracked.debug; chkp [debugInfo_checked, ih]
  | branch u b cs ih => unfold Tracked.debug; chkp [debugInfo_checked, progCollect_checked, ih]

theorem markText_checked (cached : Bool) (t : Tracked α) (k : Nibbles) :
    (markText cached .debug t k).Checked (markText cached .release t k) := by
  induction t generalizing k with
  | empty u b => exact .refl _
  | hash u b => unfold markText; chkp [trackedDebug_checked]
  | leaf u b => exact .refl _
  | ext u b c ih => unfold markText; chkp [popNibblesFront_checked, identicalUpToSmallest_checked, ih]
  | branch u b cs ih => unfold markText; chkp [popNextFront_checked, ih]

theorem markAllText_checked (cached : Bool) (t : Tracked α) (ks : List Nibbles) :
    (markAllText cached .debug t ks).Checked (markAllText cached .release t ks) := by
  induction ks generalizing t with
  | nil => exact .refl _
  | cons k ks ih => unfold markAllText; chkp [markText_checked, ih]

theorem createTrieSubsetText_checked (cached : Bool) (t : Trie α) (ks : List Nibbles) :
    (createTrieSubsetText cached .debug kec t ks).Checked (createTrieSubsetText cached .release kec t ks) := by
  unfold createTrieSubsetText
  chkp [markAllText_checked, createSubset_checked]

theorem createTrieSubsetsTextFrom_checked (cached : Bool) (t : Tracked α) (kss : List (List Nibbles)) :
    (createTrieSubsetsTextFrom cached .debug kec t kss).Checked
      (createTrieSubsetsTextFrom cached .release kec t kss) := by
  induction kss generalizing t with
  | nil => exact .refl _
  | cons ks kss ih => unfold createTrieSubsetsTextFrom; chkp [markAllText_checked, createSubset_checked, ih]

theorem createTrieSubsetsText_checked (cached : Bool) (t : Trie α) (kss : List (List Nibbles)) :
    (createTrieSubsetsText cached .debug kec t kss).Checked
      (createTrieSubsetsText cached .release kec t kss) :=
  createTrieSubsetsTextFrom_checked _ _ _

end
end EthTrie
