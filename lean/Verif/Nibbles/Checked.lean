import Verif.Nibbles.Model

/-!
# Builds with and without overflow checks: functions on keys

Every function on keys either does the same in both builds or panics in the build with overflow checks.
-/

namespace EthTrie

/-- The first computation is the second one, or it panics because of an overflow. -/
def Checked {A : Type} (d r : R A) : Prop := d = r ∨ d = .error .overflow

namespace Checked

theorem refl {A : Type} (x : R A) : Checked x x := .inl rfl

theorem bind {A B : Type} {x y : R A} {f g : A → R B} (h : Checked x y)
    (hf : ∀ a, Checked (f a) (g a)) : Checked (x >>= f) (y >>= g) := by
  rcases h with rfl | rfl
  · cases x with
    | error e => exact .inl rfl
    | ok a => exact hf a
  · exact .inr rfl

theorem usub (a b : Nat) : Checked (usub .debug a b) (usub .release a b) := by
  unfold EthTrie.usub
  split
  · exact .inl rfl
  · exact .inr rfl

theorem uadd (a b : Nat) : Checked (uadd .debug a b) (uadd .release a b) := by
  unfold EthTrie.uadd
  split
  · exact .inl rfl
  · exact .inr rfl

theorem umul (a b : Nat) : Checked (umul .debug a b) (umul .release a b) := by
  unfold EthTrie.umul
  split
  · exact .inl rfl
  · exact .inr rfl

end Checked

/-- Go through a computation in both builds. -/
syntax "chk" "[" term,* "]" : tactic
macro_rules
  | `(tactic| chk [$ls,*]) => do
    let lemmas ← ls.getElems.foldrM (fun l t => `(tactic| first | with_reducible apply $l | ($t:tactic)))
      (← `(tactic| fail))
    `(tactic| repeat' first
      | with_reducible exact Checked.refl _
      | with_reducible exact Checked.usub _ _
      | with_reducible exact Checked.uadd _ _
      | with_reducible exact Checked.umul _ _
      | ($lemmas:tactic)
      | with_reducible refine Checked.bind ?_ ?_
      | intro _
      | split)

namespace Nibbles

theorem getNibble_checked (k : Nibbles) (i : Nat) :
    Checked (k.getNibble .debug i) (k.getNibble .release i) := by
  unfold getNibble
  chk []

theorem truncateFront_checked (k : Nibbles) (n : Nat) :
    Checked (k.truncateFront .debug n) (k.truncateFront .release n) := by
  unfold truncateFront
  dsimp only
  chk []

theorem truncateBack_checked (k : Nibbles) (n : Nat) :
    Checked (k.truncateBack .debug n) (k.truncateBack .release n) := by
  unfold truncateBack
  dsimp only
  chk []

theorem popNextFront_checked (k : Nibbles) : Checked (k.popNextFront .debug) (k.popNextFront .release) := by
  unfold popNextFront
  chk [getNibble_checked, truncateFront_checked]

theorem popNextBack_checked (k : Nibbles) : Checked (k.popNextBack .debug) (k.popNextBack .release) := by
  unfold popNextBack
  chk [getNibble_checked, truncateBack_checked]

theorem getNibbleRange_checked (k : Nibbles) (i j : Nat) :
    Checked (k.getNibbleRange .debug i j) (k.getNibbleRange .release i j) := by
  unfold getNibbleRange
  chk []

theorem getNextNibbles_checked (k : Nibbles) (n : Nat) :
    Checked (k.getNextNibbles .debug n) (k.getNextNibbles .release n) := getNibbleRange_checked k 0 n

theorem popNibblesFront_checked (k : Nibbles) (n : Nat) :
    Checked (k.popNibblesFront .debug n) (k.popNibblesFront .release n) := by
  unfold popNibblesFront
  chk [getNibbleRange_checked, truncateFront_checked]

theorem popNibblesBack_checked (k : Nibbles) (n : Nat) :
    Checked (k.popNibblesBack .debug n) (k.popNibblesBack .release n) := by
  unfold popNibblesBack
  chk [getNibbleRange_checked, truncateBack_checked]

theorem pushNibbleFront_checked (k : Nibbles) (n : Nibble) :
    Checked (k.pushNibbleFront .debug n) (k.pushNibbleFront .release n) := by
  unfold pushNibbleFront
  chk []

theorem pushNibbleBack_checked (k : Nibbles) (n : Nibble) :
    Checked (k.pushNibbleBack .debug n) (k.pushNibbleBack .release n) := by
  unfold pushNibbleBack
  chk []

theorem pushNibblesFront_checked (k n : Nibbles) :
    Checked (k.pushNibblesFront .debug n) (k.pushNibblesFront .release n) := by
  unfold pushNibblesFront
  chk []

theorem allEqFrom_checked (a b : Nibbles) (i m : Nat) :
    Checked (allEqFrom .debug a b i m) (allEqFrom .release a b i m) := by
  induction m generalizing i with
  | zero => exact .refl _
  | succ m ih =>
    unfold allEqFrom
    chk [getNibble_checked, ih]

theorem identicalUpToSmallest_checked (a b : Nibbles) :
    Checked (a.identicalUpToSmallest .debug b) (a.identicalUpToSmallest .release b) :=
  allEqFrom_checked _ _ _ _

theorem splitAtIdx_checked (k : Nibbles) (i : Nat) :
    Checked (k.splitAtIdx .debug i) (k.splitAtIdx .release i) := by
  unfold splitAtIdx
  dsimp only
  chk []

theorem splitAtIdxPrefix_checked (k : Nibbles) (i : Nat) :
    Checked (k.splitAtIdxPrefix .debug i) (k.splitAtIdxPrefix .release i) := by
  unfold splitAtIdxPrefix
  chk []

theorem splitAtIdxPostfix_checked (k : Nibbles) (i : Nat) :
    Checked (k.splitAtIdxPostfix .debug i) (k.splitAtIdxPostfix .release i) := by
  unfold splitAtIdxPostfix
  chk []

theorem mergeNibble_checked (k : Nibbles) (n : Nibble) :
    Checked (k.mergeNibble .debug n) (k.mergeNibble .release n) := by
  unfold mergeNibble
  chk []

theorem mergeNibbles_checked (k n : Nibbles) :
    Checked (k.mergeNibbles .debug n) (k.mergeNibbles .release n) := by
  unfold mergeNibbles
  chk []

theorem findDiffEqualLengths_checked (a b : Nibbles) :
    Checked (findDiffEqualLengths .debug a b) (findDiffEqualLengths .release a b) := by
  unfold findDiffEqualLengths
  chk []

theorem findDiffDifferentLengths_checked (a b : Nibbles) :
    Checked (findDiffDifferentLengths .debug a b) (findDiffDifferentLengths .release a b) := by
  unfold findDiffDifferentLengths
  chk [getNibbleRange_checked, findDiffEqualLengths_checked]

theorem minBytes_checked (k : Nibbles) : Checked (k.minBytes .debug) (k.minBytes .release) := by
  unfold minBytes
  chk []

theorem bytesBE_checked (k : Nibbles) : Checked (k.bytesBE .debug) (k.bytesBE .release) := by
  unfold bytesBE
  chk [minBytes_checked]

theorem asHexStr_checked (u : Bool) (k : Nibbles) :
    Checked (k.asHexStr .debug u) (k.asHexStr .release u) := by
  unfold asHexStr
  chk [minBytes_checked]

theorem toHexPrefixEncoding_checked (k : Nibbles) (l : Bool) :
    Checked (k.toHexPrefixEncoding .debug l) (k.toHexPrefixEncoding .release l) := by
  unfold toHexPrefixEncoding
  chk []

end Nibbles
end EthTrie
