import Mathlib.Data.Nat.Digits.Defs
import Verif.Spec.Map
import Verif.Spec.Bytes

/-!
# Specification: RLP and the Merkle-Patricia root of a set of entries

Yellow paper, appendices B and D, for a finite list of entries with pairwise different keys.  An
entry is a value or the hash of an elided sub-trie (see `ValOrHash`).  Nothing here refers to the
structure of a trie of the crate.
-/

namespace EthTrie
namespace Spec

/-- `BE`: big-endian bytes of a positive number, without leading zeros. -/
def be (n : Nat) : Bytes := (Nat.digits 256 n).reverse.map UInt8.ofNat

/-- `R_b`: RLP of a byte string. -/
def rlpStr (x : Bytes) : Bytes :=
  if x.length = 1 ∧ bytesVal x < 128 then x
  else if x.length < 56 then UInt8.ofNat (128 + x.length) :: x
  else UInt8.ofNat (183 + (be x.length).length) :: (be x.length ++ x)

/-- `R_l`: RLP of a sequence whose items are already encoded. -/
def rlpSeq (xs : List Bytes) : Bytes :=
  if xs.flatten.length < 56 then UInt8.ofNat (192 + xs.flatten.length) :: xs.flatten
  else UInt8.ofNat (247 + (be xs.flatten.length).length) :: (be xs.flatten.length ++ xs.flatten)

/-- Entries with their keys. -/
abbrev Entries := List (Key × ValOrHash)

/-- The longest common prefix of the keys of some entries. -/
def lcp : Entries → Key
  | [] => []
  | [x] => x.1
  | x :: y :: J => x.1.take (cpl x.1 (lcp (y :: J)))

/-- The entries with key starting with `d`, without this nibble. -/
def under (J : Entries) (d : Fin 16) : Entries :=
  J.filterMap fun x => match x.1 with
    | e :: r => if e = d then some (r, x.2) else none
    | [] => none

/-- The entries with the first `n` nibbles of the keys removed. -/
def strip (J : Entries) (n : Nat) : Entries := J.map fun x => (x.1.drop n, x.2)

/-- The value stored under the empty key (empty if there is none). -/
def here (J : Entries) : Bytes :=
  match J.find? fun x => x.1 = [] with
  | some (_, .val v) => v
  | _ => []

/-- Size of a list of entries, for termination. -/
def size (J : Entries) : Nat := (J.map fun x => x.1.length + 1).sum

/-- `n(J, i)`, given `c(J, i)`: how a sub-trie is referred to. -/
def refer (kec : Bytes → H256) (J : Entries) (c : Bytes) : Bytes :=
  match J with
  | [] => rlpStr []
  | [([], .hash h)] => rlpStr h.toList
  | _ => if c.length < 32 then c else rlpStr (kec c).toList

theorem under_cons (x : Key × ValOrHash) (J : Entries) (d : Fin 16) :
    under (x :: J) d = (match x.1 with
      | e :: r => if e = d then [(r, x.2)] else []
      | [] => []) ++ under J d := by
  obtain ⟨k, v⟩ := x
  cases k with
  | nil => simp [under]
  | cons e r =>
    by_cases h : e = d <;> simp [under, h]

theorem size_cons (x : Key × ValOrHash) (J : Entries) : size (x :: J) = x.1.length + 1 + size J := by
  simp [size]

theorem size_under_le (J : Entries) (d : Fin 16) : size (under J d) ≤ size J := by
  induction J with
  | nil => simp [under]
  | cons x J ih =>
    obtain ⟨k, v⟩ := x
    rw [under_cons, size_cons]
    cases k with
    | nil => simp only [List.nil_append]; omega
    | cons e r =>
      by_cases h : e = d
      · simp only [h, if_true, List.singleton_append, size_cons, List.length_cons]; omega
      · simp only [h, if_false, List.nil_append]; omega

theorem size_under (J : Entries) (hJ : J ≠ []) (d : Fin 16) : size (under J d) < size J := by
  cases J with
  | nil => exact absurd rfl hJ
  | cons x J =>
    have := size_under_le J d
    obtain ⟨k, v⟩ := x
    rw [under_cons, size_cons]
    cases k with
    | nil => simp only [List.nil_append]; omega
    | cons e r =>
      by_cases h : e = d
      · simp only [h, if_true, List.singleton_append, size_cons, List.length_cons]; omega
      · simp only [h, if_false, List.nil_append]; omega

theorem size_strip_le (J : Entries) (n : Nat) : size (strip J n) ≤ size J := by
  induction J with
  | nil => simp [strip]
  | cons x J ih =>
    simp only [strip, List.map_cons, size_cons, List.length_drop] at ih ⊢
    omega

theorem lcp_prefix : ∀ (J : Entries) (x : Key × ValOrHash), x ∈ J → lcp J <+: x.1
  | [], _, h => by simp at h
  | [x], y, h => by simp at h; subst h; simp [lcp]
  | x :: y :: J, z, h => by
    rcases List.mem_cons.1 h with rfl | h
    · exact List.take_prefix _ _
    · rw [lcp, take_cpl]
      exact (List.take_prefix _ _).trans (lcp_prefix (y :: J) z h)

theorem size_strip (J : Entries) (hJ : lcp J ≠ []) :
    size (strip J (lcp J).length) < size J := by
  have hne : 0 < (lcp J).length := List.length_pos_iff.2 hJ
  cases J with
  | nil => simp [lcp] at hJ
  | cons x J =>
    have h1 := (lcp_prefix (x :: J) x (by simp)).length_le
    have h2 := size_strip_le J (lcp (x :: J)).length
    generalize (lcp (x :: J)).length = n at *
    simp only [strip, List.map_cons, size_cons, List.length_drop] at h2 ⊢
    omega

/-- `c(J, i)`: the RLP of the node for the entries `J`. -/
def node (kec : Bytes → H256) (J : Entries) : Bytes :=
  match J with
  | [] => rlpStr []
  | [(k, .val v)] => rlpSeq [rlpStr (HP k true), rlpStr v]
  | [(k, .hash h)] => rlpSeq [rlpStr (HP k false), rlpStr h.toList]
  | x :: y :: J =>
    if _h : lcp (x :: y :: J) ≠ [] then
      let J' := strip (x :: y :: J) (lcp (x :: y :: J)).length
      rlpSeq [rlpStr (HP (lcp (x :: y :: J)) false), refer kec J' (node kec J')]
    else
      rlpSeq ((List.finRange 16).map (fun d =>
          refer kec (under (x :: y :: J) d) (node kec (under (x :: y :: J) d)))
        ++ [rlpStr (here (x :: y :: J))])
  termination_by size J
  decreasing_by
    · exact size_strip _ _h
    · exact size_under _ (by simp) d

/-- `TRIE(J)`: the root hash of the entries `J`.  If everything is elided it is the hash given. -/
def trieRoot (kec : Bytes → H256) (J : Entries) : H256 :=
  match J with
  | [([], .hash h)] => h
  | J => kec (node kec J)

/-- `J` lists exactly the contents `m`, each entry once. -/
def Lists (J : Entries) (m : KMap) : Prop :=
  (J.map Prod.fst).Nodup ∧ ∀ k v, (k, v) ∈ J ↔ m k = some v

end Spec
end EthTrie
