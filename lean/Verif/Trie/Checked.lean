import Verif.Nibbles.Checked
import Verif.Sys.CatchModel

/-!
# Builds with and without overflow checks: functions on tries and programs
-/

namespace EthTrie

open Nibbles

/-- The first program is the second one, except that it may panic because of an overflow. -/
inductive Prog.Checked {α β : Type} : Prog α β → Prog α β → Prop
  | refl (p : Prog α β) : Checked p p
  | overflow (q : Prog α β) : Checked (.panic .overflow) q
  | alloc (k k' : α → Prog α β) (h : ∀ a, Checked (k a) (k' a)) : Checked (.alloc k) (.alloc k')
  | read (a : α) (k k' : Option H256 → Prog α β) (h : ∀ o, Checked (k o) (k' o)) :
      Checked (.read a k) (.read a k')
  | write (a : α) (v : Option H256) (k k' : Prog α β) (h : Checked k k') :
      Checked (.write a v k) (.write a v k')

namespace Prog.Checked

variable {α β γ : Type}

theorem lift {x y : R β} (h : EthTrie.Checked x y) : Checked (Prog.lift x : Prog α β) (Prog.lift y) := by
  rcases h with rfl | rfl
  · exact .refl _
  · exact .overflow _

theorem bind' {p q : Prog α β} {f g : β → Prog α γ} (h : Checked p q) (hf : ∀ b, Checked (f b) (g b)) :
    Checked (p.bind f) (q.bind g) := by
  induction h with
  | refl p =>
    induction p with
    | ret b => exact hf b
    | panic e => exact .refl _
    | alloc k ih => exact .alloc _ _ fun a => ih a
    | read a k ih => exact .read _ _ _ fun o => ih o
    | write a v k ih => exact .write _ _ _ _ ih
  | overflow q => exact .overflow _
  | alloc k k' _ ih => exact .alloc _ _ ih
  | read a k k' _ ih => exact .read _ _ _ ih
  | write a v k k' _ ih => exact .write _ _ _ _ ih

theorem bind {p q : Prog α β} {f g : β → Prog α γ} (h : Checked p q) (hf : ∀ b, Checked (f b) (g b)) :
    Checked (p >>= f) (q >>= g) := bind' h hf

theorem seq {ι : Type} {f g : ι → Prog α β} (h : ∀ i, Checked (f i) (g i)) (l : List ι) :
    Checked (Prog.seq (l.map f)) (Prog.seq (l.map g)) := by
  induction l with
  | nil => exact .refl _
  | cons i l ih => exact bind' (h i) fun _ => bind' ih fun _ => .refl _

/-- The results are the same, and the memory after them, unless there was an overflow. -/
theorem run {S : Type} [TrieKind α S] {p q : Prog α β} (h : Checked p q) (s : S) :
    p.run s = .error .overflow ∨ (p.run s = q.run s ∧ p.stop s = q.stop s) := by
  induction h generalizing s with
  | refl p => exact .inr ⟨rfl, rfl⟩
  | overflow q => exact .inl rfl
  | alloc k k' _ ih => exact ih _ _
  | read a k k' _ ih => exact ih _ _
  | write a v k k' _ ih => exact ih _

theorem checked {S : Type} [TrieKind α S] {p q : Prog α β} (h : Checked p q) (s : S) :
    EthTrie.Checked (p.run s) (q.run s) := (h.run s).elim .inr fun h => .inl h.1

end Prog.Checked

/-- Go through a program in both builds. -/
syntax "chkp" "[" term,* "]" : tactic
macro_rules
  | `(tactic| chkp [$ls,*]) => do
    let lemmas ← ls.getElems.foldrM (fun l t => `(tactic| first | with_reducible apply $l | ($t:tactic)))
      (← `(tactic| fail))
    `(tactic| repeat' first
      | with_reducible exact Prog.Checked.refl _
      | with_reducible exact Checked.refl _
      | with_reducible exact Checked.usub _ _
      | with_reducible exact Checked.uadd _ _
      | with_reducible exact Checked.umul _ _
      | ($lemmas:tactic)
      | with_reducible refine Prog.Checked.bind ?_ ?_
      | with_reducible refine Prog.Checked.bind' ?_ ?_
      | with_reducible refine Prog.Checked.lift ?_
      | with_reducible refine Prog.Checked.alloc _ _ ?_
      | with_reducible refine Prog.Checked.read _ _ _ ?_
      | with_reducible refine Prog.Checked.write _ _ _ _ ?_
      | with_reducible refine Checked.bind ?_ ?_
      | intro _
      | split)

theorem getPreAndPostfixes_checked (a b : Nibbles) :
    Checked (getPreAndPostfixes .debug a b) (getPreAndPostfixes .release a b) := by
  unfold getPreAndPostfixes
  chk [findDiffDifferentLengths_checked, splitAtIdx_checked, splitAtIdxPostfix_checked]

section
variable {α : Type}

theorem insEntryIntoLeafAndNibble_checked (i : PrePost) (e : InsertEntry) :
    (insEntryIntoLeafAndNibble .debug i e : Prog α _).Checked (insEntryIntoLeafAndNibble .release i e) := by
  unfold insEntryIntoLeafAndNibble
  chkp [getNibble_checked, truncateFront_checked]

theorem checkPlacement_checked (i : PrePost) (t : Trie α) (e : InsertEntry) :
    (checkPlacement .debug i t e).Checked (checkPlacement .release i t e) := by
  unfold checkPlacement
  chkp [getNibble_checked, insEntryIntoLeafAndNibble_checked]

theorem placeBranch_checked (i : PrePost) (t : Trie α) (e : InsertEntry) :
    (placeBranch .debug i t e).Checked (placeBranch .release i t e) := by
  unfold placeBranch
  chkp [checkPlacement_checked]

theorem insertRec_checked (t : Trie α) (e : InsertEntry) :
    (insertRec .debug t e).Checked (insertRec .release t e) := by
  induction t generalizing e with
  | empty a => exact .refl _
  | hash a h => exact .refl _
  | leaf a n v =>
    unfold insertRec
    chkp [getPreAndPostfixes_checked, truncateFront_checked, placeBranch_checked]
  | ext a n c ih =>
    unfold insertRec
    chkp [getPreAndPostfixes_checked, identicalUpToSmallest_checked, truncateFront_checked,
      placeBranch_checked, ih]
  | branch a cs v ih =>
    unfold insertRec
    chkp [popNextFront_checked, ih]

theorem trieInsert_checked (t : Trie α) (k : Nibbles) (v : ValOrHash) :
    (trieInsert .debug t k v).Checked (trieInsert .release t k v) := by
  unfold trieInsert
  chkp [insertRec_checked]

theorem trieExtend_checked (t : Trie α) (xs : List (Nibbles × ValOrHash)) :
    (trieExtend .debug t xs).Checked (trieExtend .release t xs) := by
  induction xs generalizing t with
  | nil => exact .refl _
  | cons x xs ih =>
    unfold trieExtend
    chkp [trieInsert_checked, ih]

theorem getIntern_checked (t : Trie α) (k : Nibbles) :
    Checked (getIntern .debug t k) (getIntern .release t k) := by
  induction t generalizing k with
  | empty a => exact .refl _
  | hash a h => exact .refl _
  | leaf a n v =>
    unfold getIntern
    chk [identicalUpToSmallest_checked]
  | ext a n c ih =>
    unfold getIntern
    chk [popNibblesFront_checked, identicalUpToSmallest_checked, ih]
  | branch a cs v ih =>
    unfold getIntern
    chk [popNextFront_checked, ih]

theorem collapseExt_checked (n : Nibbles) (t : Trie α) :
    (collapseExt .debug n t).Checked (collapseExt .release n t) := by
  unfold collapseExt
  chkp [mergeNibbles_checked]

theorem tryCollapseIfExt_checked (t : Trie α) :
    (tryCollapseIfExt .debug t).Checked (tryCollapseIfExt .release t) := by
  unfold tryCollapseIfExt
  chkp [collapseExt_checked]

theorem deleteIntern_checked (t : Trie α) (k : Nibbles) :
    (deleteIntern .debug t k).Checked (deleteIntern .release t k) := by
  induction t generalizing k with
  | empty a => exact .refl _
  | hash a h => exact .refl _
  | leaf a n v =>
    unfold deleteIntern
    chkp []
  | ext a n c ih =>
    unfold deleteIntern
    chkp [identicalUpToSmallest_checked, truncateFront_checked, ih, collapseExt_checked]
  | branch a cs v ih =>
    unfold deleteIntern
    chkp [popNextFront_checked, ih, tryCollapseIfExt_checked]

theorem trieDelete_checked (t : Trie α) (k : Nibbles) :
    (trieDelete .debug t k).Checked (trieDelete .release t k) := by
  unfold trieDelete
  chkp [deleteIntern_checked, tryCollapseIfExt_checked]

theorem Trie.insert_checked (t : Trie α) (k : Nibbles) (v : ValOrHash) :
    (t.insert .debug k v).Checked (t.insert .release k v) := by
  unfold Trie.insert
  chkp [trieInsert_checked]

theorem Trie.extend_checked (t : Trie α) (xs : List (Nibbles × ValOrHash)) :
    (t.extend .debug xs).Checked (t.extend .release xs) := by
  unfold Trie.extend
  chkp [trieExtend_checked]

theorem Trie.get_checked (t : Trie α) (k : Nibbles) : EthTrie.Checked (t.get .debug k) (t.get .release k) :=
  getIntern_checked t k

theorem Trie.delete_checked (t : Trie α) (k : Nibbles) :
    (t.delete .debug k).Checked (t.delete .release k) := by
  unfold Trie.delete
  chkp [trieDelete_checked]

theorem fromIter_checked (xs : List (Nibbles × ValOrHash)) :
    (fromIter .debug xs : Prog α _).Checked (fromIter .release xs) := by
  unfold fromIter
  chkp [Trie.extend_checked]

/-! ### Hashes -/

variable {kec : Bytes → H256}

theorem cached_checked (a : α) {p q : Prog α EncodedNode} (h : p.Checked q) :
    (cached a p).Checked (cached a q) := by
  unfold cached
  chkp [h]

theorem encodeNode_checked (t : Trie α) :
    (encodeNode .debug kec t).Checked (encodeNode .release kec t) := by
  induction t with
  | empty a => exact .refl _
  | hash a h => exact .refl _
  | leaf a n v =>
    unfold encodeNode
    chkp [toHexPrefixEncoding_checked]
  | ext a n c ih =>
    unfold encodeNode
    chkp [toHexPrefixEncoding_checked, cached_checked, ih]
  | branch a cs v ih =>
    unfold encodeNode
    exact .bind' (.seq (fun i => cached_checked _ (ih i)) _) fun _ => .refl _

theorem hashIntern_checked (t : Trie α) :
    (hashIntern .debug kec t).Checked (hashIntern .release kec t) := cached_checked _ (encodeNode_checked t)

theorem Trie.rootHash_checked (t : Trie α) :
    (t.rootHash .debug kec).Checked (t.rootHash .release kec) := by
  unfold Trie.rootHash hashProg hashTrie
  chkp [encodeNode_checked]

/-! ### Subsets -/

theorem mark_checked (t : Tracked α) (k : Nibbles) : Checked (mark .debug t k) (mark .release t k) := by
  induction t generalizing k with
  | empty u b => exact .refl _
  | hash u b => exact .refl _
  | leaf u b => exact .refl _
  | ext u b c ih =>
    unfold mark
    chk [popNibblesFront_checked, identicalUpToSmallest_checked, ih]
  | branch u b cs ih =>
    unfold mark
    chk [popNextFront_checked, ih]

theorem markAll_checked (t : Tracked α) (ks : List Nibbles) :
    Checked (markAll .debug t ks) (markAll .release t ks) := by
  induction ks generalizing t with
  | nil => exact .refl _
  | cons k ks ih =>
    unfold markAll
    chk [mark_checked, ih]

theorem hashAway_checked (t : Tracked α) :
    (hashAway .debug kec t).Checked (hashAway .release kec t) := by
  unfold hashAway
  chkp [hashIntern_checked]

theorem createSubset_checked (t : Tracked α) :
    (createSubset .debug kec t).Checked (createSubset .release kec t) := by
  induction t with
  | empty u b => unfold createSubset; chkp [hashAway_checked]
  | hash u b => unfold createSubset; chkp [hashAway_checked]
  | leaf u b => unfold createSubset; chkp [hashAway_checked]
  | ext u b c ih => unfold createSubset; chkp [hashAway_checked, ih]
  | branch u b cs ih => unfold createSubset; chkp [hashAway_checked, Prog.Checked.seq, ih]

theorem createTrieSubset_checked (t : Trie α) (ks : List Nibbles) :
    (createTrieSubset .debug kec t ks).Checked (createTrieSubset .release kec t ks) := by
  unfold createTrieSubset
  chkp [markAll_checked, createSubset_checked]

theorem createTrieSubsetsFrom_checked (t : Tracked α) (kss : List (List Nibbles)) :
    (createTrieSubsetsFrom .debug kec t kss).Checked (createTrieSubsetsFrom .release kec t kss) := by
  induction kss generalizing t with
  | nil => exact .refl _
  | cons ks kss ih =>
    unfold createTrieSubsetsFrom
    chkp [markAll_checked, createSubset_checked, ih]

theorem createTrieSubsets_checked (t : Trie α) (kss : List (List Nibbles)) :
    (createTrieSubsets .debug kec t kss).Checked (createTrieSubsets .release kec t kss) :=
  createTrieSubsetsFrom_checked _ _

end
end EthTrie
