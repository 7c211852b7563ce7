import Verif.Trie.Model
import Verif.Spec.Keys

/-!
# Specification: contents as a finite map

The contents of a trie are a map from keys to entries; an entry is a value, or the hash that stands
for an elided sub-trie.  Keys may have different lengths.  This file says which calls the crate
supports on given contents; none of it refers to the structure of a trie.
-/

namespace EthTrie

/-- Contents of a trie. -/
abbrev KMap := Key → Option ValOrHash

namespace KMap

/-- Nothing stored. -/
def empty : KMap := fun _ => none

/-- Store an entry. -/
def put (m : KMap) (k : Key) (v : ValOrHash) : KMap := fun q => if q = k then some v else m q

/-- Remove an entry. -/
def erase (m : KMap) (k : Key) : KMap := fun q => if q = k then none else m q

/-- The value stored under a key. -/
def find (m : KMap) (k : Key) : Option Bytes :=
  match m k with
  | some (.val v) => some v
  | _ => none

/-- The contents below a prefix. -/
def sub (m : KMap) (n : Key) : KMap := fun q => m (n ++ q)

/-- Some entry has a key properly extending `k`. -/
def Below (m : KMap) (k : Key) : Prop := ∃ d r, m (k ++ d :: r) ≠ none

/-- Entries properly extending `k` with different next nibbles. -/
def Forks (m : KMap) (k : Key) : Prop :=
  ∃ d e r s, d ≠ e ∧ m (k ++ d :: r) ≠ none ∧ m (k ++ e :: s) ≠ none

/-- Exactly one entry has a key extending `k`, and it is a value. -/
def LoneVal (m : KMap) (k : Key) : Prop :=
  ∃ q x, m (k ++ q) = some (.val x) ∧ ∀ r, m (k ++ r) ≠ none → r = q

/-- No hash is stored at a prefix of `k` (or at `k`). -/
def NoHashOn (m : KMap) (k : Key) : Prop := ∀ q h, m q = some (.hash h) → ¬ q <+: k

/-- The insertions that the crate supports. -/
structure InsertOK (m : KMap) (k : Key) (v : ValOrHash) : Prop where
  /-- the key does not run into an elided sub-trie -/
  noHash : m.NoHashOn k
  /-- no empty value is stored at a proper prefix of the key -/
  noEmpty : ∀ q, m q = some (.val []) → q <+: k → q = k
  /-- an empty value may not be stored at a proper prefix of another key -/
  nonempty : m.Below k → v ≠ .val []
  /-- a new value may not end strictly inside the common prefix of several entries -/
  val : ∀ x, v = .val x → m k ≠ none ∨ ¬ m.Below k ∨ m.Forks k ∨ m.LoneVal k
  /-- a hash is stored only where nothing is -/
  hash : ∀ h, v = .hash h → m k = none ∧ ¬ m.Below k

/-- The keys that can be followed into the trie in builds with overflow checks: if the key is absent
then it is not shorter than the common prefix of several entries that diverge from it (or of an
elided sub-trie). -/
def PathOK (m : KMap) (k : Key) : Prop :=
  m k = none → ∀ q p, q <+: k → q <+: p → k.length < p.length → m.Below q →
    (∀ r, m r ≠ none → q <+: r → p <+: r) → m.LoneVal q

/-- The lookups that the crate supports. -/
structure GetOK (P : Profile) (m : KMap) (k : Key) : Prop where
  /-- an absent key does not extend the key of a value unless that value has entries below it -/
  leaf : m k = none → ∀ q x, m q = some (.val x) → q <+: k → m.Below q
  /-- an absent key is not a prefix of exactly one entry, a value -/
  inside : m k = none → ¬ m.LoneVal k
  /-- with overflow checks: see `PathOK` -/
  short : P.overflowChecks = true → m.PathOK k
  /-- without overflow checks: an absent key does not leave off before a run of zero nibbles at the
  end of which there is a value with entries below it -/
  zeros : P.overflowChecks = false → m k = none → ∀ q j x, q <+: k → k.length < q.length + j →
    m (q ++ List.replicate j 0) = some (.val x) → ¬ m.Below (q ++ List.replicate j 0)

/-- The deletions that the crate supports. -/
structure DeleteOK (m : KMap) (k : Key) : Prop where
  /-- the key does not run into an elided sub-trie -/
  noHash : m.NoHashOn k
  /-- an absent key has at most one entry below it, a value -/
  absent : m k = none → ¬ m.Below k ∨ m.LoneVal k
  /-- a stored key with entries below it has at least two kinds of them -/
  branch : m k ≠ none → ¬ m.Below k ∨ m.Forks k
  /-- if the last entry below `q ++ [d]` goes away and `q` is stored itself, then at least two other
  branches remain at `q` -/
  parent : m k ≠ none → ∀ q d r, k = q ++ d :: r → m q ≠ none →
    (∀ s, m (q ++ d :: s) ≠ none → s = r) →
    ∃ e f s t, e ≠ f ∧ e ≠ d ∧ f ≠ d ∧ m (q ++ e :: s) ≠ none ∧ m (q ++ f :: t) ≠ none

end KMap
end EthTrie
