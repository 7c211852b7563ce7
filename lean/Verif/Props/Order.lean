import Verif.Props.Contents
import Verif.Props.Rebuild

/-!
# Property C16: the order in which entries are inserted, for keys of any lengths

`C16_order` is about keys none of which is a prefix of another.  Here keys may be prefixes of others, and
entries may be hashes.
-/

namespace EthTrie

open Spec KMap LNode Nibbles

/-- Entries that can be stored together: only non-empty values are stored under keys that are prefixes of
other keys. -/
def Together (xs : List (Key × ValOrHash)) : Prop :=
  ∀ x ∈ xs, ∀ y ∈ xs, x.1 <+: y.1 → x.1 ≠ y.1 → ∃ v, v ≠ [] ∧ x.2 = .val v

/-- No key comes after another one that extends it, or is the same. -/
def PrefixesFirst (xs : List (Key × ValOrHash)) : Prop := xs.Pairwise fun x y => ¬ y.1 <+: x.1

theorem putsOK_prefixesFirst : ∀ (B : List (Key × ValOrHash)) (c : KMap),
    (∀ x ∈ B, x.1.length ≤ 127) → PrefixesFirst B → Together B →
    (∀ q w, c q = some w → ∀ x ∈ B, ¬ x.1 <+: q ∧ (q <+: x.1 → ∃ v, v ≠ [] ∧ w = .val v)) →
    c.PutsOK B := by
  intro B
  induction B with
  | nil => intro c _ _ _ _; trivial
  | cons x B ih =>
    obtain ⟨k, v⟩ := x
    intro c hl ho ht hc
    obtain ⟨o1, o2⟩ := List.pairwise_cons.1 ho
    have hkc : ∀ q w, c q = some w → ¬ k <+: q := fun q w hq => (hc q w hq _ List.mem_cons_self).1
    have hno : ¬ c.Below k := by
      rintro ⟨d, r, hb⟩
      obtain ⟨w, hw⟩ := Option.ne_none_iff_exists'.1 hb
      exact hkc _ w hw (List.prefix_append _ _)
    refine ⟨hl _ List.mem_cons_self, ⟨?_, ?_, fun h => absurd h hno, fun _ _ => .inr (.inl hno),
      fun _ _ => ⟨?_, hno⟩⟩, ih _ (fun x hx => hl x (List.mem_cons_of_mem _ hx)) o2
      (fun x hx y hy => ht x (List.mem_cons_of_mem _ hx) y (List.mem_cons_of_mem _ hy)) ?_⟩
    · intro q h hq hp
      obtain ⟨v, -, e⟩ := (hc q _ hq _ List.mem_cons_self).2 hp
      cases e
    · intro q hq hp
      obtain ⟨v, hv, e⟩ := (hc q _ hq _ List.mem_cons_self).2 hp
      cases e
      exact absurd rfl hv
    · by_contra hn
      obtain ⟨w, hw⟩ := Option.ne_none_iff_exists'.1 hn
      exact hkc k w hw List.prefix_rfl
    · intro q w hq y hy
      rw [put] at hq
      split at hq
      · rename_i e
        cases hq
        subst e
        refine ⟨o1 y hy, fun hp => ?_⟩
        refine ht _ List.mem_cons_self y (List.mem_cons_of_mem _ hy) hp fun e => ?_
        dsimp only at e
        exact o1 y hy (e ▸ List.prefix_rfl)
      · exact hc q w hq y (List.mem_cons_of_mem _ hy)

theorem order_of_putsOK (K : Kind) (P : Profile) (kec : Bytes → H256) {xs ys : List (Key × ValOrHash)}
    (hx : KMap.empty.PutsOK xs) (hy : KMap.empty.PutsOK ys)
    (hm : KMap.empty.putAll ys = KMap.empty.putAll xs) :
    ∃ h, K.obs P kec [.fromIter xs, .fromIter ys, .eq 0 1, .hash 0, .hash 1] =
      .ok [.unit, .unit, .bool true, .root h, .root h] := by
  obtain ⟨s, os, h1, h2, h3⟩ := Reached.run (M := .noEmptySubset)
    [.fromIter xs, .fromIter ys, .eq 0 1, .hash 0, .hash 1]
    (.start (K := K) (P := P) (kec := kec))
    ⟨hx, fun _ _ _ => ⟨hy, fun _ _ _ => ⟨trivial, fun _ _ _ => ⟨trivial, fun _ _ _ =>
      ⟨trivial, fun _ _ _ => trivial⟩⟩⟩⟩⟩
    (by intro c hc
        simp only [List.mem_cons, List.not_mem_nil, or_false] at hc
        rcases hc with rfl | rfl | rfl | rfl | rfl <;> cases K <;> trivial)
  have h0 : (Kind.start K).contents = [] := rfl
  rw [h0] at h2
  generalize hms : s.contents = ms at h2
  cases h2 with | cons e1 h2 =>
  cases h2 with | cons e2 h2 =>
  cases h2 with | cons e3 h2 =>
  cases h2 with | cons e4 h2 =>
  cases h2 with | cons e5 h2 =>
  cases h2
  obtain ⟨rfl, rfl⟩ := e1
  obtain ⟨rfl, rfl⟩ := e2
  obtain ⟨⟨b, rfl, hb⟩, rfl⟩ := e3
  obtain ⟨⟨J, hJ, rfl⟩, rfl⟩ := e4
  obtain ⟨⟨J', hJ', rfl⟩, rfl⟩ := e5
  cases hb.2 hm.symm
  have h5 : ∃ t ∈ s.hs, t.contents = KMap.empty.putAll xs := by
    have : KMap.empty.putAll xs ∈ s.contents := by rw [hms]; simp
    simpa only [Sys.contents, List.mem_map] using this
  obtain ⟨t, ht, htc⟩ := h5
  have hc := (h3.canon ht).1
  refine ⟨trieRoot kec J, ?_⟩
  have e1 := rootHash_spec kec (J := J) hc (by rw [← Trie.contents, htc]; exact hJ)
  have e2 := rootHash_spec kec (J := J') hc (by rw [← Trie.contents, htc, ← hm]; exact hJ')
  rw [e1] at e2
  rw [Kind.obs, Kind.run, h1, ← e2]
  rfl

theorem PrefixesFirst.nodup {xs : List (Key × ValOrHash)} (h : PrefixesFirst xs) :
    (xs.map (·.1)).Nodup :=
  List.pairwise_map.2 (List.Pairwise.imp (fun {a b} h (e : a.1 = b.1) => h (e ▸ List.prefix_rfl)) h)

/-- C16 for keys some of which are prefixes of others, and with hashes: if the entries can be stored
together at all, then every order in which no key comes after one that extends it gives the same trie with
the same hash.  (Orders in which a key comes later need not: `C72_false`.) -/
theorem C16_prefixes_first (K : Kind) (P : Profile) (kec : Bytes → H256) (xs ys : List (Key × ValOrHash))
    (hperm : xs.Perm ys) (hl : ∀ x ∈ xs, x.1.length ≤ 127) (ht : Together xs) (hx : PrefixesFirst xs)
    (hy : PrefixesFirst ys) :
    ∃ h, K.obs P kec [.fromIter xs, .fromIter ys, .eq 0 1, .hash 0, .hash 1] =
      .ok [.unit, .unit, .bool true, .root h, .root h] :=
  order_of_putsOK K P kec
    (putsOK_prefixesFirst xs _ hl hx ht fun q w hq => by cases hq)
    (putsOK_prefixesFirst ys _ (fun x h => hl x (hperm.mem_iff.2 h)) hy
      (fun x h y h' => ht x (hperm.mem_iff.2 h) y (hperm.mem_iff.2 h')) fun q w hq => by cases hq)
    (putAll_perm hperm hx.nodup _).symm

/-- C16: in particular every order by increasing length. -/
theorem C16_by_length (K : Kind) (P : Profile) (kec : Bytes → H256) (xs ys : List (Key × ValOrHash))
    (hperm : xs.Perm ys) (hl : ∀ x ∈ xs, x.1.length ≤ 127) (ht : Together xs) (hn : (xs.map (·.1)).Nodup)
    (hx : xs.Pairwise fun x y => x.1.length ≤ y.1.length)
    (hy : ys.Pairwise fun x y => x.1.length ≤ y.1.length) :
    ∃ h, K.obs P kec [.fromIter xs, .fromIter ys, .eq 0 1, .hash 0, .hash 1] =
      .ok [.unit, .unit, .bool true, .root h, .root h] := by
  have key : ∀ zs : List (Key × ValOrHash), (zs.map (·.1)).Nodup →
      (zs.Pairwise fun x y => x.1.length ≤ y.1.length) → PrefixesFirst zs := by
    intro zs h1 h2
    refine (h2.and (List.pairwise_map.1 h1)).imp fun {a b} h hp => h.2 ?_
    exact (hp.eq_of_length (Nat.le_antisymm hp.length_le h.1)).symm
  exact C16_prefixes_first K P kec xs ys hperm hl ht (key xs hn hx)
    (key ys ((hperm.map _).nodup_iff.1 hn) hy)

/-- Keys that are prefixes of others, and a hash. -/
example (h : H256) : let xs : List (Key × ValOrHash) :=
      [([1, 2], .val [9]), ([4], .hash h), ([1, 2, 3, 4], .val [7]), ([1, 2, 3, 5], .val [])]
    let ys : List (Key × ValOrHash) :=
      [([1, 2], .val [9]), ([1, 2, 3, 5], .val []), ([1, 2, 3, 4], .val [7]), ([4], .hash h)]
    xs.Perm ys ∧ Together xs ∧ PrefixesFirst xs ∧ PrefixesFirst ys := by
  refine ⟨?_, ?_, by simp [PrefixesFirst], by simp [PrefixesFirst]⟩
  · exact .cons _ (List.reverse_perm _).symm
  · simp [Together]

end EthTrie
