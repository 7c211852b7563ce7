import Verif.Trie.Rebuild
import Verif.Props.Exact

/-!
# Property C72: collecting the items of a trie
-/

namespace EthTrie

open Spec KMap LNode Nibbles

variable {K K' : Kind} {M M' : Mode} {P P' : Profile} {kec kec' : Bytes → H256} {s : Sys K.Ann K.State}
  {s' : Sys K'.Ann K'.State} {i : Nat} {t : Trie K.Ann}

/-- `from_iter` in a running program. -/
theorem Live.collect (h : Live K M P kec s) {xs : List (Key × ValOrHash)} (hx : ∀ x ∈ xs, x.1.length ≤ 127) :
    ((fromIter P (packEntries xs) : Prog K.Ann (Trie K.Ann)) s.state).map (fun r => r.1.plain) =
      PSys.extendL .empty xs ∧
    ∀ t' st, (fromIter P (packEntries xs) : Prog K.Ann (Trie K.Ann)) s.state = .ok (t', st) →
      Live K M P kec ⟨st, s.hs ++ [t']⟩ := by
  constructor
  · have := h.exec (c := .fromIter xs) hx trivial
    simp only [Sys.exec, plainExec] at this
    change plainRes (((fromIter P (packEntries xs) : Prog K.Ann (Trie K.Ann)) s.state) >>= _) = _ at this
    revert this
    cases (fromIter P (packEntries xs) : Prog K.Ann (Trie K.Ann)) s.state with
    | error e =>
      cases PSys.extendL .empty xs with
      | error e' => simp [plainRes, Except.map]
      | ok l => simp [plainRes, Except.map]
    | ok r =>
      cases PSys.extendL .empty xs with
      | error e' => simp [plainRes, Except.map]
      | ok l => simp [plainRes, Except.map, Sys.plains]
  · intro t' st e
    refine .step h (c := .fromIter xs) (o := .unit) hx (by cases K <;> cases M <;> trivial) ?_
    simp only [Sys.exec]
    change ((fromIter P (packEntries xs) : Prog K.Ann (Trie K.Ann)) s.state) >>= _ = _
    rw [e]; rfl

/-- C72 is false for some tries: the items come with the longest keys first, so `[1, 2]` is inserted
last, ends inside the run that leads to the others, and is stored under `[1, 2, 3]`; where the run leads to an elided
sub-trie, collecting the items panics. -/
theorem C72_false : ∀ (K : Kind) (P : Profile) (kec : Bytes → H256),
    K.obs P kec [.fromIter [([1, 2], .val [9]), ([1, 2, 3, 4], .val [7]), ([1, 2, 3, 5], .val [8])], .items 0,
      .fromIter [([1, 2, 3, 4], .val [7]), ([1, 2, 3, 5], .val [8]), ([1, 2], .val [9])], .eq 1 0, .items 1] =
      .ok [.unit, .items (packEntries [([1, 2, 3, 4], .val [7]), ([1, 2, 3, 5], .val [8]), ([1, 2], .val [9])]),
        .unit, .bool false,
        .items (packEntries [([1, 2, 3, 4], .val [7]), ([1, 2, 3, 5], .val [8]), ([1, 2, 3], .val [9])])] ∧
    ∀ h : H256, K.obs P kec [.fromIter [([1, 2], .val [9]), ([1, 2, 3, 4], .hash h)], .items 0] =
      .ok [.unit, .items (packEntries [([1, 2, 3, 4], .hash h), ([1, 2], .val [9])])] ∧
    K.obs P kec [.fromIter [([1, 2, 3, 4], .hash h), ([1, 2], .val [9])]] = .error .hashInsert := by
  intro K ⟨P⟩ kec
  refine ⟨?_, fun h => ⟨?_, ?_⟩⟩ <;> cases K <;> cases P <;> kernel_rfl

theorem tail_items {l : LNode} : Tail (absL l) KMap.empty (l.items []) where
  part := fun q hq => absurd rfl hq
  ord := items_ordered l []
  mem := fun x hx => ⟨((items_lists l).2 x.1 x.2).1 hx, rfl⟩
  all := fun k v e => .inr (((items_lists l).2 k v).2 e)

theorem Live.items_len (hp : t.PathsAtMost 64) : ∀ q, absL t.plain q ≠ none → q.length ≤ 127 := fun q hq =>
  (bound_absL _ 64 q ((plain_bound t).2 hp) hq).trans (by decide)

theorem Live.items_len' (hp : t.PathsAtMost 64) : ∀ x ∈ t.plain.items [], x.1.length ≤ 127 := fun x hx =>
  Live.items_len hp x.1 (by rw [((items_lists t.plain).2 x.1 x.2).1 hx]; simp)

/-- What a collected trie is if its entries went where they should. -/
theorem Live.collected (h : Live K M P kec s) (hi : s.hs[i]? = some t) (hc : t.Canonical)
    (h' : Live K' M' P' kec s') {xs : List (Key × ValOrHash)} (hx : ∀ x ∈ xs, x.1.length ≤ 127)
    (hok : KMap.empty.PutsOK xs) (he : KMap.empty.putAll xs = t.contents) :
    ∃ t' st, (fromIter P' (packEntries xs) : Prog K'.Ann (Trie K'.Ann)) s'.state = .ok (t', st) ∧
      t'.beq t = true ∧ (M.Safe → M'.Safe →
        (t'.rootHash P' kec st).map (·.1) = (t.rootHash P kec s.state).map (·.1)) := by
  obtain ⟨h1, h2⟩ := h'.collect hx
  obtain ⟨l, h3, h4, h5⟩ := PSys.extendL_spec xs .empty trivial (by exact hok)
  rw [h3] at h1
  cases hf : (fromIter P' (packEntries xs) : Prog K'.Ann (Trie K'.Ann)) s'.state with
  | error e => rw [hf] at h1; cases h1
  | ok r =>
    obtain ⟨t', st⟩ := r
    rw [hf] at h1
    have hpl : t'.plain = l := by simpa [Except.map] using h1
    have hl := h2 t' st hf
    have hg : (s'.hs ++ [t'])[s'.hs.length]? = some t' := by simp
    have hb : t'.beq t = true := by
      rw [Trie.beq_iff_plain (hl.wfKeys (List.mem_of_getElem? hg)) (h.wfKeys (List.mem_of_getElem? hi)), hpl]
      refine canon_unique _ _ h4 (plain_of_canonical t hc) ?_
      rw [h5]; exact he
    exact ⟨t', st, rfl, hb, fun s1 s2 => (C36_items_hash hl h hg hi hb).2⟩

/-- C72, for which tries it holds: the trie that is collected from the items of a canonical one, of either
type, is equal to it exactly if no stored key ends inside a run of nibbles of the other entries. -/
theorem C72_iff (h : Live K M P kec s) (hi : s.hs[i]? = some t) (hc : t.Canonical) (hp : t.PathsAtMost 64)
    (h' : Live K' M' P' kec' s') : ∃ xs, t.items P = .ok xs ∧
      ((∃ t' st, (fromIter P' xs : Prog K'.Ann (Trie K'.Ann)) s'.state = .ok (t', st) ∧ t'.beq t = true) ↔
        t.contents.Collectable) := by
  have hcp := plain_of_canonical t hc
  have hS := Sound.of_canon hcp
  refine ⟨_, h.items_short hi ((plain_bound t).2 hp), ?_⟩
  obtain ⟨h1, h2⟩ := h'.collect (Live.items_len' hp)
  constructor
  · rintro ⟨t', st, e, hb⟩ k hk
    obtain ⟨v, hv⟩ := Option.ne_none_iff_exists'.1 hk
    change (fromIter P' (packEntries (t.plain.items [])) : Prog K'.Ann (Trie K'.Ann)) s'.state = _ at e
    rw [e] at h1
    exact Tail.collectable hS (l := .empty) trivial (tail_items (l := t.plain)) h1.symm
      (C36_congr t' t hb).1 (k, v) (((items_lists t.plain).2 k v).2 hv)
  · intro hR
    obtain ⟨g1, g2⟩ := tail_items.putsOK hS (Live.items_len hp) hR
    obtain ⟨l, h3, h4, h5⟩ := PSys.extendL_spec _ .empty trivial (by exact g1)
    rw [h3] at h1
    change ∃ t' st, (fromIter P' (packEntries (t.plain.items [])) : Prog K'.Ann (Trie K'.Ann)) s'.state = _ ∧ _
    cases hf : (fromIter P' (packEntries (t.plain.items [])) : Prog K'.Ann (Trie K'.Ann)) s'.state with
    | error e => rw [hf] at h1; cases h1
    | ok r =>
      obtain ⟨t', st⟩ := r
      rw [hf] at h1
      have hpl : t'.plain = l := by simpa [Except.map] using h1
      refine ⟨t', st, rfl, ?_⟩
      rw [Trie.beq_iff_plain ((h2 t' st hf).wfKeys (by simp)) (h.wfKeys (List.mem_of_getElem? hi)), hpl]
      refine canon_unique _ _ h4 hcp ?_
      rw [h5]; exact g2

/-- C72 for canonical tries in which no stored key ends inside a run of nibbles of the other entries, for
example those in which no key is a prefix of another: collecting the items, into either type, gives an equal
trie with the same hash.  Missing: the tries of `C72_false`; `C72_iff` says that these are all. -/
theorem C72_partial (h : Live K M P kec s) (hi : s.hs[i]? = some t) (hc : t.Canonical)
    (hp : t.PathsAtMost 64) (hR : t.contents.Collectable) (h' : Live K' M' P' kec s') :
    ∃ xs t' st, t.items P = .ok xs ∧
      (fromIter P' xs : Prog K'.Ann (Trie K'.Ann)) s'.state = .ok (t', st) ∧ t'.beq t = true ∧
      (M.Safe → M'.Safe → (t'.rootHash P' kec st).map (·.1) = (t.rootHash P kec s.state).map (·.1)) := by
  obtain ⟨g1, g2⟩ := tail_items.putsOK (Sound.of_canon (plain_of_canonical t hc)) (Live.items_len hp) hR
  obtain ⟨t', st, h1, h2, h3⟩ := h.collected hi hc h' (Live.items_len' hp) g1 g2
  exact ⟨_, t', st, h.items_short hi ((plain_bound t).2 hp), h1, h2, h3⟩

/-- No key of the contents is a proper prefix of another. -/
theorem C72_prefix_free {m : KMap} (h : ∀ k q, m k ≠ none → m q ≠ none → k <+: q → k = q) :
    m.Collectable := by
  rintro k hk ⟨_, ⟨d, r, hb⟩, _⟩
  rw [erase_ext] at hb
  have := h k _ hk hb (List.prefix_append _ _)
  simp at this

example : (KMap.empty.putAll [([1, 2], .val [7]), ([1, 3], .val [8])]).Collectable := by
  refine C72_prefix_free fun k q hk hq h => ?_
  have hk := ((lists_putAll [([1, 2], .val [7]), ([1, 3], .val [8])] (by decide)).some_iff k).1 hk
  have hq := ((lists_putAll [([1, 2], .val [7]), ([1, 3], .val [8])] (by decide)).some_iff q).1 hq
  obtain ⟨x, hx, rfl⟩ := hk
  obtain ⟨y, hy, rfl⟩ := hq
  exact (by decide : ∀ x ∈ ([([1, 2], .val [7]), ([1, 3], .val [8])] : List (Key × ValOrHash)), ∀ y ∈
    ([([1, 2], .val [7]), ([1, 3], .val [8])] : List (Key × ValOrHash)), x.1 <+: y.1 → x.1 = y.1) x hx y hy h

/-- C72 for the items in reverse order, without exception: every canonical trie is collected again. -/
theorem C72_reverse (h : Live K M P kec s) (hi : s.hs[i]? = some t) (hc : t.Canonical)
    (hp : t.PathsAtMost 64) (h' : Live K' M' P' kec s') :
    ∃ xs t' st, t.items P = .ok xs ∧
      (fromIter P' xs.reverse : Prog K'.Ann (Trie K'.Ann)) s'.state = .ok (t', st) ∧ t'.beq t = true ∧
      (M.Safe → M'.Safe → (t'.rootHash P' kec st).map (·.1) = (t.rootHash P kec s.state).map (·.1)) := by
  have hlist := items_lists t.plain
  obtain ⟨g1, g2⟩ := putsOK_reverse (m := absL t.plain) (Sound.of_canon (plain_of_canonical t hc))
    (Live.items_len hp) (B := (t.plain.items []).reverse) (c := KMap.empty) (fun q hq => absurd rfl hq)
    (List.pairwise_reverse.2 (items_ordered t.plain []))
    (fun x hx => ⟨(hlist.2 x.1 x.2).1 (List.mem_reverse.1 hx), fun q hq => absurd rfl hq⟩)
    (fun k v e => .inr (List.mem_reverse.2 ((hlist.2 k v).2 e)))
  obtain ⟨t', st, h1, h2, h3⟩ := h.collected hi hc h'
    (fun x hx => Live.items_len' hp x (List.mem_reverse.1 hx)) g1 g2
  refine ⟨_, t', st, h.items_short hi ((plain_bound t).2 hp), ?_, h2, h3⟩
  rw [packEntries, List.map_reverse] at h1
  exact h1

/-- A value above two others that fork right below it and one above a single value, whose trie is collected
from its items; and the reverse order for the trie of `C72_false`. -/
example : ∀ (K : Kind) (P : Profile),
    K.obs P kec0 [.fromIter [([1, 2], .val [9]), ([1, 2, 4], .val [7]), ([1, 2, 5, 6], .val [8]), ([1, 2, 5], .val [6])],
      .items 0, .fromIter [([1, 2, 4], .val [7]), ([1, 2, 5, 6], .val [8]), ([1, 2, 5], .val [6]), ([1, 2], .val [9])],
      .eq 1 0] =
    .ok [.unit, .items (packEntries
      [([1, 2, 4], .val [7]), ([1, 2, 5, 6], .val [8]), ([1, 2, 5], .val [6]), ([1, 2], .val [9])]),
      .unit, .bool true] ∧
    K.obs P kec0 [.fromIter [([1, 2, 3, 4], .val [7]), ([1, 2], .val [9]), ([1, 2, 3, 5], .val [8])], .items 0,
      .fromIter [([1, 2, 3, 4], .val [7]), ([1, 2, 3, 5], .val [8]), ([1, 2], .val [9])].reverse, .eq 1 0] =
      .ok [.unit, .items (packEntries [([1, 2, 3, 4], .val [7]), ([1, 2, 3, 5], .val [8]), ([1, 2], .val [9])]),
        .unit, .bool true] := by
  intro K ⟨P⟩; cases K <;> cases P <;> decide +kernel

end EthTrie
