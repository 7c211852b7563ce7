import Verif.Debug.TrieText
import Verif.Subset.Model

/-!
# Model of the error messages

The `Display` implementations that `thiserror` derives for the errors of the crate.
`StrToNibblesError` passes on the message of the `uint` crate, which is not modelled.
-/

namespace EthTrie

/-- `{:#0wb}` of an unsigned integer: the prefix `0b`, then zeros up to the width, then the digits
(`src/nibbles.rs:59`). -/
def showBin (width n : Nat) : Text :=
  let ds := Nat.toDigits 2 n
  t!"0b" ++ List.replicate (width - 2 - ds.length) '0' ++ ds

/-- `Display for BytesToNibblesError` (`src/nibbles.rs:48-55`). -/
def Nibbles.BytesError.show : Nibbles.BytesError → Text
  | .zeroSizedKey => t!"Tried constructing `Nibbles` from a zero byte slice"
  | .tooManyBytes len =>
    t!"Tried constructing `Nibbles` from a byte slice with more than 33 bytes (len: " ++ showNat len ++
      t!")"

/-- `Display for FromHexPrefixError` (`src/nibbles.rs:57-64`). -/
def Nibbles.FromHexPrefixError.show : Nibbles.FromHexPrefixError → Text
  | .invalidFlags n =>
    t!"Tried to convert a hex prefix byte string into `Nibbles` with invalid flags at the start: " ++
      showBin 4 n
  | .tooLong hex len =>
    t!"Tried to convert a hex prefix byte string into `Nibbles` that was longer than 64 bytes: (length: " ++
      hex ++ t!", bytes: " ++ showNat len ++ t!")"

/-- `Display for SubsetTrieError` (`src/trie_subsets.rs:23-27`); `trie` is the second field of the error. -/
def SubsetError.show (P : Profile) (trie : Text) : SubsetError → R Text
  | .unexpectedKey k => do
    return t!"Tried to mark nodes in a tracked trie for a key that does not exist! (Key: " ++ (← k.show P) ++
      t!", trie: " ++ trie ++ t!")"

section
variable {α : Type} (cached : Bool) (P : Profile) (kec : Bytes → H256)

/-- `{:?}` of a `TrackedNode` (`src/trie_subsets.rs:38-42`) with the given text of its first field, and of its
`TrackedNodeInfo` (`156-160`). -/
def Tracked.debugInfo (u : Trie α) (touched : Bool) (node : Text) : Prog α Text :=
  (u.debug cached P).bind fun d =>
    .ret (t!"TrackedNode { node: " ++ node ++ t!", info: TrackedNodeInfo { underlying_node: " ++ d ++
      t!", touched: " ++ (if touched then t!"true" else t!"false") ++ t!" } }")

/-- `{:?}` of a `TrackedNode` (`src/trie_subsets.rs:29-42`). -/
def Tracked.debug : Tracked α → Prog α Text
  | .empty u b => Tracked.debugInfo cached P u b t!"Empty"
  | .hash u b => Tracked.debugInfo cached P u b t!"Hash"
  | .branch u b cs => (Prog.collect 16 fun i => Tracked.debug (cs i)).bind fun ds =>
    Tracked.debugInfo cached P u b (t!"Branch(" ++ debugList (List.ofFn ds) ++ t!")")
  | .ext u b c => (Tracked.debug c).bind fun d =>
    Tracked.debugInfo cached P u b (t!"Extension(" ++ d ++ t!")")
  | .leaf u b => Tracked.debugInfo cached P u b t!"Leaf"

/-- `mark_nodes_that_are_needed` (`src/trie_subsets.rs:260-296`) with both fields of the error. -/
def markText : Tracked α → Nibbles → Prog α (Except (SubsetError × Text) (Tracked α))
  | .empty u _, _ => return .ok (.empty u true)
  | .hash u _, k =>
    match k.isEmpty with
    | false => do return .error (.unexpectedKey k, ← Tracked.debug cached P (.hash u true))
    | true => return .ok (.hash u true)
  | .branch u _ cs, k =>
    if k.isEmpty then
      return .ok (.branch u true cs)
    else do
      let (nib, rest) ← Prog.lift (k.popNextFront P)
      let i ← Prog.lift (idx16 nib)
      match ← markText (cs i) rest with
      | .error e => return .error e
      | .ok c => return .ok (.branch u true (upd cs i c))
  | .ext u _ c, k => do
    let nibbles ← Prog.lift (getNibblesExpected u)
    let (r, rest) ← Prog.lift (k.popNibblesFront P nibbles.count)
    match ← Prog.lift (r.identicalUpToSmallest P nibbles) with
    | false => return .ok (.ext u true c)
    | true =>
      match ← markText c rest with
      | .error e => return .error e
      | .ok c' => return .ok (.ext u true c')
  | .leaf u _, _ => return .ok (.leaf u true)

/-- The key loop of `create_trie_subset_intern` (`src/trie_subsets.rs:253-255`) with both fields of the
error. -/
def markAllText (t : Tracked α) : List Nibbles → Prog α (Except (SubsetError × Text) (Tracked α))
  | [] => return .ok t
  | k :: ks => do
    match ← markText cached P t k with
    | .error e => return .error e
    | .ok t' => markAllText t' ks

/-- `create_trie_subset` (`src/trie_subsets.rs:212-220, 245-258`) with both fields of the error. -/
def createTrieSubsetText (t : Trie α) (ks : List Nibbles) :
    Prog α (Except (SubsetError × Text) (Trie α)) := do
  match ← markAllText cached P (Tracked.new t) ks with
  | .error e => return .error e
  | .ok tr => return .ok (← createSubset P kec tr)

/-- The loop of `create_trie_subsets` (`src/trie_subsets.rs:234-242`) with both fields of the error. -/
def createTrieSubsetsTextFrom (tr : Tracked α) :
    List (List Nibbles) → Prog α (Except (SubsetError × Text) (List (Trie α)))
  | [] => return .ok []
  | ks :: kss => do
    match ← markAllText cached P tr ks with
    | .error e => return .error e
    | .ok tr' =>
      let res ← createSubset P kec tr'
      match ← createTrieSubsetsTextFrom (resetTracked tr') kss with
      | .error e => return .error e
      | .ok rs => return .ok (res :: rs)

/-- `create_trie_subsets` (`src/trie_subsets.rs:225-243`) with both fields of the error. -/
def createTrieSubsetsText (t : Trie α) (kss : List (List Nibbles)) :
    Prog α (Except (SubsetError × Text) (List (Trie α))) :=
  createTrieSubsetsTextFrom cached P kec (Tracked.new t) kss

end

end EthTrie
