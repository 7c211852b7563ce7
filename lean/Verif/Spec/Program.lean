import Mathlib.Data.List.Forall2
import Verif.Spec.Elide
import Verif.Spec.Exact
import Verif.Spec.Order
import Verif.Sys.Model

/-!
# Specification: programs on finite maps

What the calls of a program must do, in terms of the contents of the handles only.
-/

namespace EthTrie

open Spec Nibbles

namespace KMap

/-- Store several entries, in order. -/
def putAll (m : KMap) : List (Key × ValOrHash) → KMap
  | [] => m
  | (k, v) :: xs => putAll (m.put k v) xs

/-- All keys have at most 64 nibbles. -/
def Short (m : KMap) : Prop := ∀ k, m k ≠ none → k.length ≤ 64

/-- The insertions of a list of entries are supported. -/
def PutsOK (m : KMap) : List (Key × ValOrHash) → Prop
  | [] => True
  | (k, v) :: xs => k.length ≤ 127 ∧ InsertOK m k v ∧ PutsOK (m.put k v) xs

/-- The result of a subset: partial contents that agree with the original on the paths of the
keys. -/
def SubsetOf (kec : Bytes → H256) (m : KMap) (ks : List Key) (m' : KMap) : Prop :=
  Elided kec m m' ∧ ∀ k ∈ ks, Agree m m' k

end KMap

open KMap

/-- A call on handle `i`. -/
def onMap (ms : List KMap) (i : Nat) (f : KMap → Obs → List KMap → Prop) (o : Obs)
    (ms' : List KMap) : Prop :=
  match ms[i]? with
  | none => o = .noHandle ∧ ms' = ms
  | some m => f m o ms'

/-- `Step kec ms c o ms'`: in a state with contents `ms` the call `c` may return `o` and leave the
contents `ms'`. -/
def Step (kec : Bytes → H256) (ms : List KMap) : Cmd → Obs → List KMap → Prop
  | .new => fun o ms' => o = .unit ∧ ms' = ms ++ [KMap.empty]
  | .fromIter xs => fun o ms' => o = .unit ∧ ms' = ms ++ [KMap.empty.putAll xs]
  | .clone i => onMap ms i fun m o ms' => o = .unit ∧ ms' = ms ++ [m]
  | .insert i k v => onMap ms i fun m o ms' => o = .unit ∧ ms' = ms.set i (m.put k v)
  | .extend i xs => onMap ms i fun m o ms' => o = .unit ∧ ms' = ms.set i (m.putAll xs)
  | .delete i k => onMap ms i fun m o ms' => o = .val (m.find k) ∧ ms' = ms.set i (m.erase k)
  | .get i k => onMap ms i fun m o ms' => o = .val (m.find k) ∧ ms' = ms
  | .hash i => onMap ms i fun m o ms' =>
      (∃ J, Lists J m ∧ o = .root (trieRoot kec J)) ∧ ms' = ms
  | .items i => onMap ms i fun m o ms' =>
      (∃ J, Lists J m ∧ Ordered J ∧ o = .items (packEntries J)) ∧ ms' = ms
  | .eq i j => onMap ms i fun m => onMap ms j fun m' o ms' =>
      (∃ b, o = .bool b ∧ (b = true ↔ m = m')) ∧ ms' = ms
  | .subset i ks => onMap ms i fun m o ms' =>
      (∃ r, FirstErr m ks r ∧ o = .err (.unexpectedKey (ofList r)) ∧ ms' = ms) ∨
      (NoErr m ks ∧ ∃ m', SubsetOf kec m ks m' ∧ o = .unit ∧ ms' = ms ++ [m'])
  | .subsets i kss => onMap ms i fun m o ms' =>
      (∃ kss₁ ks kss₂ r, kss = kss₁ ++ ks :: kss₂ ∧ (∀ ks' ∈ kss₁, NoErr m ks') ∧
        FirstErr m ks r ∧ o = .err (.unexpectedKey (ofList r)) ∧ ms' = ms) ∨
      ((∀ ks ∈ kss, NoErr m ks) ∧ ∃ new, List.Forall₂ (SubsetOf kec m) kss new ∧ o = .unit ∧
        ms' = ms ++ new)

/-- The calls that the crate supports.  Keys have at most 127 nibbles; for `delete` and `items()` those in
the trie have at most 64. -/
def Supported (P : Profile) (ms : List KMap) : Cmd → Prop
  | .fromIter xs => KMap.empty.PutsOK xs
  | .insert i k v => k.length ≤ 127 ∧ ∀ m, ms[i]? = some m → InsertOK m k v
  | .extend i xs => (∀ x ∈ xs, x.1.length ≤ 127) ∧ ∀ m, ms[i]? = some m → PutsOK m xs
  | .delete i k => k.length ≤ 127 ∧ ∀ m, ms[i]? = some m → DeleteOK m k ∧ m.Short
  | .get i k => k.length ≤ 127 ∧ ∀ m, ms[i]? = some m → GetOK P m k
  | .subset i ks => (∀ k ∈ ks, k.length ≤ 127) ∧
      (P.overflowChecks = true → ∀ m, ms[i]? = some m → ∀ k ∈ ks, PathOK m k)
  | .subsets i kss => (∀ ks ∈ kss, ∀ k ∈ ks, k.length ≤ 127) ∧
      (P.overflowChecks = true → ∀ m, ms[i]? = some m → ∀ ks ∈ kss, ∀ k ∈ ks, PathOK m k)
  | .items i => ∀ m, ms[i]? = some m → m.Short
  | _ => True

namespace KMap

/-- The insertions of a list of entries keep the trie canonical. -/
def PutsClean (m : KMap) : List (Key × ValOrHash) → Prop
  | [] => True
  | (k, v) :: xs => (∀ t, Lands m k t → InsertClean m t v) ∧
      ∀ t m', Lands m k t → insertExact m t v = .ok m' → PutsClean m' xs

end KMap

/-- The calls that keep tries canonical if they return.  This includes the supported ones.  Keys have
at most 127 nibbles. -/
def Tame (ms : List KMap) : Cmd → Prop
  | .fromIter xs => (∀ x ∈ xs, x.1.length ≤ 127) ∧ KMap.empty.PutsClean xs
  | .insert i k v => k.length ≤ 127 ∧ ∀ m t, ms[i]? = some m → Lands m k t → InsertClean m t v
  | .extend i xs => (∀ x ∈ xs, x.1.length ≤ 127) ∧ ∀ m, ms[i]? = some m → PutsClean m xs
  | .delete i k => k.length ≤ 127 ∧ ∀ m t, ms[i]? = some m → Lands m k t → DeleteClean m t
  | .get _ k => k.length ≤ 127
  | .subset _ ks => ∀ k ∈ ks, k.length ≤ 127
  | .subsets _ kss => ∀ ks ∈ kss, ∀ k ∈ ks, k.length ≤ 127
  | _ => True

/-- All calls of a program are supported, whatever the calls before return. -/
def SupportedRun (P : Profile) (kec : Bytes → H256) (ms : List KMap) : List Cmd → Prop
  | [] => True
  | c :: cs => Supported P ms c ∧ ∀ o ms', Step kec ms c o ms' → SupportedRun P kec ms' cs

/-- `Steps kec ms cs os ms'`: the program `cs` may return `os` and leave the contents `ms'`. -/
inductive Steps (kec : Bytes → H256) : List KMap → List Cmd → List Obs → List KMap → Prop
  | nil (ms : List KMap) : Steps kec ms [] [] ms
  | cons {ms ms' ms'' : List KMap} {c : Cmd} {cs : List Cmd} {o : Obs} {os : List Obs}
      (h : Step kec ms c o ms') (hs : Steps kec ms' cs os ms'') :
      Steps kec ms (c :: cs) (o :: os) ms''

/-- Programs for which cache cells are certainly never stale: nothing is cloned, or no subset for an
empty list of keys is made. -/
def CacheSafe (cs : List Cmd) : Prop :=
  (∀ i, Cmd.clone i ∉ cs) ∨
  ((∀ i, Cmd.subset i [] ∉ cs) ∧ ∀ i kss, Cmd.subsets i kss ∈ cs → [] ∉ kss)

end EthTrie
