import Verif.Spec.Map

/-!
# Specification: what insertions and deletions really do

On canonical tries, for every key.  Nothing here refers to the structure of a trie.
-/

namespace EthTrie
namespace KMap

/-- The key is absent and ends strictly inside a run of nibbles: entries extend it, all with the same
next nibble, and they are not just one value. -/
def EndsInside (m : KMap) (k : Key) : Prop :=
  m k = none ∧ m.Below k ∧ ¬ m.Forks k ∧ ¬ m.LoneVal k

/-- The key `t` that a call with key `k` acts on: `k` itself, except that a key that ends inside a run
of nibbles is continued to the end of the run, i.e. to the longest common prefix of the entries that
extend it. -/
def Lands (m : KMap) (k t : Key) : Prop :=
  (¬ m.EndsInside k ∧ t = k) ∨
  (m.EndsInside k ∧ k <+: t ∧ (∀ r, m r ≠ none → k <+: r → t <+: r) ∧ (m t ≠ none ∨ m.Forks t))

/-- A hash is stored at `t` or at a prefix of `t`. -/
def HashOn (m : KMap) (t : Key) : Prop := ∃ q h, m q = some (.hash h) ∧ q <+: t

/-- There is a branch at `t`: entries extend `t`, and they are not just one value. -/
def BranchAt (m : KMap) (t : Key) : Prop := m.Below t ∧ (m t ≠ none ∨ ¬ m.LoneVal t)

open Classical in
/-- The contents after storing `v` at `t`: an empty value above other entries counts as absent, and an
empty value at a proper prefix of `t` is lost. -/
noncomputable def stored (m : KMap) (t : Key) (v : ValOrHash) : KMap := fun q =>
  if q = t then (if v = .val [] ∧ m.Below t then none else some v)
  else if m q = some (.val []) ∧ q <+: t then none
  else m q

open Classical in
/-- The outcome of an insertion that acts on the key `t`. -/
noncomputable def insertExact (m : KMap) (t : Key) (v : ValOrHash) : R KMap :=
  if m.HashOn t then .error .hashInsert
  else match v with
    | .val x => .ok (m.stored t (.val x))
    | .hash h =>
      if m t ≠ none ∨ m.BranchAt t then .error .hashOnExisting
      else if m.Below t then .error .expectFailed
      else .ok (m.stored t (.hash h))

/-- The insertions after which the trie is still canonical: no empty value is lost, and no empty value is
stored above entries that all continue with the same nibble. -/
def InsertClean (m : KMap) (t : Key) (v : ValOrHash) : Prop :=
  (∀ q, m q = some (.val []) → q <+: t → q = t) ∧ (v = .val [] → m.Below t → m.Forks t)

/-- The deletions after which the trie is still canonical: the removed value is not stored above entries
that all continue with the same nibble. -/
def DeleteClean (m : KMap) (t : Key) : Prop := m t ≠ none → m.Below t → m.Forks t

/-- The deletions that return the stored value and remove just it. -/
structure DeleteRight (m : KMap) (k : Key) : Prop where
  noHash : m.NoHashOn k
  absent : m k = none → ¬ m.Below k ∨ m.LoneVal k
  parent : m k ≠ none → ∀ q d r, k = q ++ d :: r → m q ≠ none →
    (∀ s, m (q ++ d :: s) ≠ none → s = r) →
    ∃ e f s t, e ≠ f ∧ e ≠ d ∧ f ≠ d ∧ m (q ++ e :: s) ≠ none ∧ m (q ++ f :: t) ≠ none

/-- `q` is where the path of the entry `t` leaves the other entries: `t` is the only entry that extends
`q ++ [d]`, and `q` is stored or a fork. -/
def LeavesAt (m : KMap) (t q : Key) (d : Fin 16) : Prop :=
  ∃ r, t = q ++ d :: r ∧ (m q ≠ none ∨ m.Forks q) ∧ ∀ s, m (q ++ d :: s) ≠ none → s = r

/-- No entry extends `q` with a next nibble other than `d`. -/
def NoOther (m : KMap) (q : Key) (d : Fin 16) : Prop := ∀ e s, m (q ++ e :: s) ≠ none → e = d

/-- At most one nibble other than `d` continues `q`. -/
def OneOther (m : KMap) (q : Key) (d : Fin 16) : Prop :=
  ∀ e f s t, m (q ++ e :: s) ≠ none → m (q ++ f :: t) ≠ none → e ≠ d → f ≠ d → e = f

open Classical in
/-- The outcome of a deletion that acts on the key `t`. -/
noncomputable def deleteExact (m : KMap) (t : Key) : R (KMap × Option Bytes) :=
  if m.HashOn t then .error .hashDelete
  else if m.BranchAt t then .ok (m.erase t, some ((m.find t).getD []))
  else match m.find t with
    | none => .ok (m, none)
    | some x =>
      if ∃ q d, m.LeavesAt t q d ∧ m.NoOther q d then .error .expectFailed
      else .ok (fun p => if p = t ∨ ∃ d, m.LeavesAt t p d ∧ m.OneOther p d then none else m p, some x)

/-- The key `t` leaves a run of more than 64 nibbles: all entries that extend a prefix `a` of `t` continue
it with `y`, there are such entries, and `t` departs from `a ++ y` before either ends. -/
def LongRun (m : KMap) (t : Key) : Prop :=
  ∃ a y, 64 < y.length ∧ a <+: t ∧ ¬ a ++ y <+: t ∧ ¬ t <+: a ++ y ∧
    (∃ q, m q ≠ none ∧ a ++ y <+: q) ∧ ∀ q, m q ≠ none → a <+: q → a ++ y <+: q

open Classical in
/-- The outcome of a deletion with the assertion that keys put together have at most 64 nibbles. -/
noncomputable def deleteLong (m : KMap) (t : Key) : R (KMap × Option Bytes) :=
  match m.deleteExact t with
  | .ok (m', some x) => if m'.LongRun t then .error .assertFailed else .ok (m', some x)
  | r => r

/-- A key that can be inserted and deleted again without a trace.  The calls act on a key
`q` (`Lands`) under which nothing is stored and which does not run into a hash; if entries extend `q`
they continue with different nibbles; and if a stored key `p` is a proper prefix of `q` then some entry
already continues `p` with the same nibble as `q`, or the entries below `p` fork. -/
def Undoable (m : KMap) (k : Key) : Prop :=
  ∃ q, m.Lands k q ∧ m q = none ∧ ¬ m.HashOn q ∧ (m.Below q → m.Forks q) ∧
    ∀ p d r, q = p ++ d :: r → m p ≠ none → (∃ s, m (p ++ d :: s) ≠ none) ∨ m.Forks p

end KMap
end EthTrie
