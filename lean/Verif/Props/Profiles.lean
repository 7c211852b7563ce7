import Verif.Debug.Checked
import Verif.Props.MapOps
import Verif.Props.Panics
import Verif.Sys.Checked

/-!
# C78: builds with and without overflow checks
-/

namespace EthTrie

open Nibbles

variable {kec : Bytes → H256}

/-- Whole programs, with keys of any length, stale caches and hashed subtries: either the build with overflow
checks panics because of an overflow, or both builds return the same things (or panic in the same way) and
leave the same handles and the same memory. -/
theorem C78_run (K : Kind) (kec : Bytes → H256) (cs : List Cmd) :
    K.run .debug kec cs = .error .overflow ∨ K.run .debug kec cs = K.run .release kec cs :=
  (K.start.run_checked cs).symm

/-- The same from any state, however it came about. -/
theorem C78_step {α S : Type} [TrieKind α S] (s : Sys α S) (cs : List Cmd) :
    s.run .debug kec cs = .error .overflow ∨ s.run .debug kec cs = s.run .release kec cs :=
  (s.run_checked cs).symm

/-- A program that runs through with overflow checks runs through without them, and returns the same. -/
theorem C78_ok (K : Kind) (kec : Bytes → H256) (cs : List Cmd) {r : Sys K.Ann K.State × List Obs}
    (h : K.run .debug kec cs = .ok r) : K.run .release kec cs = .ok r := by
  rcases C78_run K kec cs with h1 | h1
  · rw [h1] at h; cases h
  · rw [← h1, h]

/-- Programs that catch panics: as long as none of the panics of the build with overflow checks is an
overflow, both builds return the same things, catch the same panics and are in the same state in the end. -/
theorem C78_caught (K : Kind) (kec : Bytes → H256) (cs : List Cmd)
    (h : .error .overflow ∉ (K.runC .debug kec cs).2) : K.runC .debug kec cs = K.runC .release kec cs :=
  K.start.runC_checked cs h

/-- The calls that only read keys. -/
def Cmd.Looks : Cmd → Prop
  | .get _ _ | .subset _ _ | .subsets _ _ => True
  | _ => False

theorem PSys.exec_profile (s : PSys) (C : Bool) {c : Cmd} (h : ¬ c.Looks) (P Q : Profile) :
    s.exec P C kec c = s.exec Q C kec c := by
  cases c <;> first | rfl | exact absurd trivial h

/-- Programs that do not call `get` or make subsets, with keys of at most 127 nibbles: all panics are the same,
too.  So an overflow can only come from a `get` or a subset, or from longer keys. -/
theorem C78_same (K : Kind) (kec : Bytes → H256) {cs : List Cmd} (hc : ∀ c ∈ cs, c.Short)
    (hl : ∀ c ∈ cs, ¬ c.Looks) (P Q : Profile) : K.obs P kec cs = K.obs Q kec cs := by
  rw [K.obs_exact P kec hc, K.obs_exact Q kec hc]
  congr 1
  generalize PSys.start = s
  clear hc
  induction cs generalizing s with
  | nil => rfl
  | cons c cs ih =>
    simp only [PSys.run]
    rw [s.exec_profile _ (hl c (.head _)) P Q]
    congr 1
    funext r
    rw [ih (fun c h => hl c (.tail _ h)) r.1]

/-- What a computation does in a build with overflow checks is an overflow or what it does without them. -/
def Agrees {A : Type} (f : Profile → R A) : Prop := f .debug = .error .overflow ∨ f .debug = f .release

/-- The functions on keys. -/
theorem C78_keys (a b : Nibbles) (i j : Nat) (leaf upper : Bool) :
    (Agrees fun P => a.getNibble P i) ∧
    (Agrees fun P => a.popNextFront P) ∧
    (Agrees fun P => a.popNextBack P) ∧
    (Agrees fun P => a.popNibblesFront P i) ∧
    (Agrees fun P => a.popNibblesBack P i) ∧
    (Agrees fun P => a.getNextNibbles P i) ∧
    (Agrees fun P => a.getNibbleRange P i j) ∧
    (Agrees fun P => a.pushNibbleFront P i) ∧
    (Agrees fun P => a.pushNibbleBack P i) ∧
    (Agrees fun P => a.pushNibblesFront P b) ∧
    (Agrees fun P => a.mergeNibble P i) ∧
    (Agrees fun P => a.mergeNibbles P b) ∧
    (Agrees fun P => a.splitAtIdx P i) ∧
    (Agrees fun P => a.splitAtIdxPrefix P i) ∧
    (Agrees fun P => a.splitAtIdxPostfix P i) ∧
    (Agrees fun P => a.truncateFront P i) ∧
    (Agrees fun P => a.truncateBack P i) ∧
    (Agrees fun P => a.identicalUpToSmallest P b) ∧
    (Agrees fun P => findDiffEqualLengths P a b) ∧
    (Agrees fun P => findDiffDifferentLengths P a b) ∧
    (Agrees fun P => a.toHexPrefixEncoding P leaf) ∧
    (Agrees fun P => a.bytesBE P) ∧
    (Agrees fun P => a.asHexStr P upper) ∧
    (Agrees fun P => a.debug P) :=
  ⟨(getNibble_checked _ _).symm, (popNextFront_checked _).symm, (popNextBack_checked _).symm,
    (popNibblesFront_checked _ _).symm, (popNibblesBack_checked _ _).symm, (getNextNibbles_checked _ _).symm,
    (getNibbleRange_checked _ _ _).symm, (pushNibbleFront_checked _ _).symm, (pushNibbleBack_checked _ _).symm,
    (pushNibblesFront_checked _ _).symm, (mergeNibble_checked _ _).symm, (mergeNibbles_checked _ _).symm,
    (splitAtIdx_checked _ _).symm, (splitAtIdxPrefix_checked _ _).symm, (splitAtIdxPostfix_checked _ _).symm,
    (truncateFront_checked _ _).symm, (truncateBack_checked _ _).symm, (identicalUpToSmallest_checked _ _).symm,
    (findDiffEqualLengths_checked _ _).symm, (findDiffDifferentLengths_checked _ _).symm,
    (toHexPrefixEncoding_checked _ _).symm, (bytesBE_checked _).symm, (asHexStr_checked _ _).symm,
    (debug_checked _).symm⟩

/-- The debugging tools and the texts they print, and the texts of tries and of errors of subsets. -/
theorem C78_tools {α S : Type} [TrieKind α S] (cached : Bool) (t u : Trie α) (st : S) (q : DebugQuery)
    (name : Option String) (ks : List Nibbles) (kss : List (List Nibbles)) :
    (Agrees fun P => do (← getPathFromQuery P t q).show P) ∧
    (Agrees fun P => do (← trieStats P t name).show P) ∧
    (Agrees fun P => do (← trieStats P t name).compare P (← trieStats P u name)) ∧
    (Agrees fun P => do showDiff P (← (t.diff P kec u).run st).1) ∧
    (Agrees fun P => (t.debug cached P).run st) ∧
    (Agrees fun P => (createTrieSubsetText cached P kec t ks).run st) ∧
    (Agrees fun P => (createTrieSubsetsText cached P kec t kss).run st) ∧
    (Agrees fun P => t.items P) :=
  ⟨(Checked.bind (getPathFromQuery_checked t q) queryShow_checked).symm,
    (Checked.bind (trieStats_checked t name) statsShow_checked).symm,
    (Checked.bind (trieStats_checked t name) fun _ => .bind (trieStats_checked u name) fun _ =>
      compare_checked _ _).symm,
    (Checked.bind ((diff_checked t u).checked st) fun _ => showDiff_checked _).symm,
    ((trieDebug_checked cached t).checked st).symm,
    ((createTrieSubsetText_checked cached t ks).checked st).symm,
    ((createTrieSubsetsText_checked cached t kss).checked st).symm, t.items_checked.symm⟩

/-! ## Examples -/

/-- A program for which the builds differ: `C78_run` with an overflow, beside `C44_false`. -/
theorem C78_differ : ∀ (K : Kind) (kec : Bytes → H256),
    K.obs .debug kec [.new, .insert 0 [1, 0, 0] (.val [7]), .insert 0 [1, 0, 0, 1] (.val [8]),
      .insert 0 [2] (.val [9]), .get 0 [1, 2]] = .error .overflow ∧
    K.obs .release kec [.new, .insert 0 [1, 0, 0] (.val [7]), .insert 0 [1, 0, 0, 1] (.val [8]),
      .insert 0 [2] (.val [9]), .get 0 [1, 2]] = .ok [.unit, .unit, .unit, .unit, .val (some [7])] := by
  refine fun K kec => ⟨?_, C44_false K kec⟩
  rw [K.obs_eq _ _ (by simp [Cmd.Short]) (.inl (by simp))]
  kernel_rfl

/-- A program with lookups and a subset that runs through with overflow checks. -/
def profileProg : List Cmd :=
  [.fromIter [([1, 2, 3, 4], .val [1]), ([1, 2, 5], .val [2]), ([6], .hash witnessHash)], .hash 0,
    .get 0 [1, 2, 5, 7], .delete 0 [1, 2, 5], .subset 0 [[1, 2, 3]], .items 1, .hash 1]

example : ∃ r, Kind.hashed.run .debug kec0 profileProg = .ok r ∧
    Kind.hashed.run .release kec0 profileProg = .ok r := by
  cases h : Kind.hashed.run .debug kec0 profileProg with
  | ok r => exact ⟨r, rfl, C78_ok _ _ _ h⟩
  | error e =>
    have : (match Kind.hashed.run .debug kec0 profileProg with | .ok _ => true | .error _ => false) = true := by
      decide +kernel
    rw [h] at this
    cases this

/-- A program that catches four panics, none of them an overflow. -/
example : Kind.hashed.runC .debug kec0 caughtProg = Kind.hashed.runC .release kec0 caughtProg :=
  C78_caught _ _ _ (by decide +kernel)

/-- A program that panics in the same way in both builds. -/
example (K : Kind) : ∀ P Q : Profile, K.obs P kec0 (caughtProg.take 2) = K.obs Q kec0 (caughtProg.take 2) :=
  C78_same K kec0 (by simp only [caughtProg, List.take, List.forall_mem_cons, Cmd.Short]; simp) (by simp [caughtProg, Cmd.Looks])

example (K : Kind) : K.obs .debug kec0 (caughtProg.take 2) = .error .hashInsert := by
  cases K <;> decide +kernel

/-- Functions on keys: the same, and different. -/
example : (ofList [1, 2, 3]).popNibblesFront .debug 2 = .ok (ofList [1, 2], ofList [3]) ∧
    (ofList [1, 2, 3]).popNibblesFront .release 2 = .ok (ofList [1, 2], ofList [3]) := by
  constructor <;> decide +kernel

example : (ofList [1, 2, 3]).getNibble .debug (2 ^ 64 - 125) = .error .overflow ∧
    (ofList [1, 2, 3]).getNibble .release (2 ^ 64 - 125) = .ok 0 := by constructor <;> decide +kernel

/-- A query in both builds. -/
example : let t : Trie Unit := .ext () (ofList [1, 2]) (.leaf () (ofList [3]) [9])
    (do (← getPathFromQuery .debug t (.ofKey (ofList [1, 2, 3]))).show .debug : R Text) =
      (do (← getPathFromQuery .release t (.ofKey (ofList [1, 2, 3]))).show .release) ∧
    (do (← getPathFromQuery .debug t (.ofKey (ofList [1, 2, 3]))).show .debug : R Text) ≠ .error .overflow := by
  decide +kernel

end EthTrie
