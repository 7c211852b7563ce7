import Verif.Props.Exact
import Verif.Props.KeyConv
import Verif.Trie.LongExact

/-!
# Property C67: keys of more than 64 nibbles

The theorems about tries allow keys of up to 127 nibbles.  But the functions that put pieces of keys
together (`merge_nibble`, `merge_nibbles`, `push_nibble_back`, `push_nibbles_back`) assert that the result
has at most 64 nibbles.  So `delete` and the iterators can panic on tries with longer keys.
-/

namespace EthTrie

open Spec KMap LNode Nibbles

variable {K : Kind} {M : Mode} {P : Profile} {kec : Bytes → H256} {s : Sys K.Ann K.State} {i : Nat}
  {t : Trie K.Ann}

/-! ## Deletions -/

/-- C67, what `delete` does for every key on a canonical trie with keys of any length: it acts on exactly
one key `q`; it then does what `deleteExact` says (see `C15_exact`), except that it panics if after the
deletion `q` departs from a run of more than 64 nibbles without a fork or the end of a key. -/
theorem C67_delete (h : Live K M P kec s) (hi : s.hs[i]? = some t) (hc : t.Canonical) (k : Key)
    (hk : k.length ≤ 127) :
    ∃ q, (∀ r, t.contents.Lands k r ↔ r = q) ∧
      (t.delete P (ofList k) s.state).map (fun r => (r.1.1.contents, r.1.2)) = t.contents.deleteLong q ∧
      ∀ t' x st, t.delete P (ofList k) s.state = .ok ((t', x), st) →
        (t'.Canonical ↔ (x ≠ none → t.contents.DeleteClean q)) := by
  have hc := plain_of_canonical t hc
  have hp := h.delete hi hk
  obtain ⟨q, h1, h2⟩ := deleteA_exact (l := t.plain) k hc
  refine ⟨q, fun r => ⟨fun hr => hr.unique h1, fun e => e ▸ h1⟩, ?_, fun t' x st e => ?_⟩
  · rw [Trie.contents, ← h2, ← hp]
    cases t.delete P (ofList k) s.state <;> rfl
  · rw [e] at hp
    rw [canonical_iff]
    exact delete_clean hc h1 (LNode.deleteA_ok hp.symm)

example (K : Kind) (P : Profile) : ∃ q, (∀ r, (caseT K P 0).contents.Lands [1, 3] r ↔ r = q) ∧
    ((caseT K P 0).delete P (ofList [1, 3]) (caseS K P).state).map (fun r => (r.1.1.contents, r.1.2)) =
      (caseT K P 0).contents.deleteLong q ∧
    ∀ t' x st, (caseT K P 0).delete P (ofList [1, 3]) (caseS K P).state = .ok ((t', x), st) →
      (t'.Canonical ↔ (x ≠ none → (caseT K P 0).contents.DeleteClean q)) :=
  C67_delete (caseLive K P) (caseGet K P (by decide)) (caseCanonical K P _ (by decide)) _
    (by decide)

/-- C67, for which keys `delete` works: on a canonical trie it returns the stored value and removes
exactly the given key if and only if `DeleteRight` holds and the key, if it is stored, does not depart from
a run of more than 64 nibbles of the other keys. -/
theorem C67_delete_iff (h : Live K M P kec s) (hi : s.hs[i]? = some t) (hc : t.Canonical) (k : Key)
    (hk : k.length ≤ 127) :
    (∃ t' st, t.delete P (ofList k) s.state = .ok ((t', t.contents.find k), st) ∧
      ∀ q, t'.contents q = if q = k then none else t.contents q) ↔
    DeleteRight t.contents k ∧ (t.contents k ≠ none → ¬ (t.contents.erase k).LongRun k) := by
  obtain ⟨q, h1, h2, -⟩ := C67_delete h hi hc k hk
  have hfind : DeleteRight t.contents k → t.contents k ≠ none → ∃ x, t.contents.find k = some x := by
    intro hr hn
    obtain ⟨v, hv⟩ := Option.ne_none_iff_exists'.1 hn
    cases v with
    | hash x => exact absurd List.prefix_rfl (hr.noHash k x hv)
    | val x => exact ⟨x, by simp [find, hv]⟩
  have hfind' : t.contents k = none → t.contents.find k = none := fun hn => by simp [find, hn]
  constructor
  · rintro ⟨t', st, e, h3⟩
    rw [e] at h2
    have h2 : deleteLong t.contents q = .ok (t.contents.erase k, t.contents.find k) := by
      rw [← h2]; exact congrArg Except.ok (Prod.ext (funext h3) rfl)
    have h4 : deleteExact t.contents q = .ok (t.contents.erase k, t.contents.find k) := by
      rw [deleteLong] at h2
      split at h2
      · rename_i m' x he
        split at h2
        · cases h2
        · rw [he, h2]
      · exact h2
    have hr := deleteRight_of_exact ((h1 q).2 rfl) h4
    refine ⟨hr, fun hn hl => ?_⟩
    have hq := (h1 k).1 (deleteRight_lands hr)
    subst hq
    obtain ⟨x, hx⟩ := hfind hr hn
    rw [hx] at h4 h2
    rw [deleteLong, h4] at h2
    simp only [if_pos hl] at h2
    cases h2
  · rintro ⟨hr, hl⟩
    have hq := (h1 k).1 (deleteRight_lands hr)
    subst hq
    have h3 : deleteLong t.contents k = .ok (t.contents.erase k, t.contents.find k) := by
      rw [deleteLong, deleteRight_exact hr]
      by_cases hn : t.contents k = none
      · rw [hfind' hn]
      · obtain ⟨x, hx⟩ := hfind hr hn
        rw [hx]
        simp only [if_neg (hl hn)]
    rw [h3] at h2
    cases e : t.delete P (ofList k) s.state with
    | error x => rw [e] at h2; cases h2
    | ok r =>
      obtain ⟨⟨t', x⟩, st⟩ := r
      rw [e] at h2
      have := Prod.mk.inj (Except.ok.inj h2)
      refine ⟨t', st, ?_, fun q => congrFun this.1 q⟩
      rw [← this.2]

/-- C67: with keys of at most 64 nibbles there are no runs of more than 64 nibbles. -/
theorem C67_short {m : KMap} (h : m.Short) (k : Key) : ¬ m.LongRun k := by
  rintro ⟨a, y, h1, -, -, -, ⟨q, h2, h3⟩, -⟩
  have := h3.length_le
  rw [List.length_append] at this
  have := h q h2
  omega

/-- C67: insertions never fail with the assertion. -/
theorem C67_insert (h : Live K M P kec s) (hi : s.hs[i]? = some t) (hc : t.Canonical) (k : Key)
    (hk : k.length ≤ 127) (v : ValOrHash) : t.insert P (ofList k) v s.state ≠ .error .assertFailed := by
  obtain ⟨q, -, h2, -⟩ := C14_exact h hi hc k hk v
  intro e
  rw [e] at h2
  have h2 : t.contents.insertExact q v = .error .assertFailed := h2.symm
  unfold insertExact at h2
  split at h2
  · cases h2
  · cases v with
    | val x => cases h2
    | hash x =>
      dsimp only at h2
      split at h2
      · cases h2
      · split at h2 <;> cases h2

example (K : Kind) (P : Profile) (v : ValOrHash) :
    (caseT K P 0).insert P (ofList (List.replicate 127 2)) v (caseS K P).state ≠ .error .assertFailed :=
  C67_insert (caseLive K P) (caseGet K P (by decide)) (caseCanonical K P _ (by decide)) _
    (by simp) v

/-! ## Iterators -/

/-- C67: the iterators work exactly if no path has more than 64 nibbles. -/
theorem C67_items (h : Live K M P kec s) (hi : s.hs[i]? = some t) :
    ((∃ J, t.items P = .ok J) ↔ t.PathsAtMost 64) ∧
      (¬ t.PathsAtMost 64 → t.items P = .error .assertFailed ∧ t.keys P = .error .assertFailed ∧
        t.values P = .error .assertFailed) := by
  refine ⟨⟨fun ⟨J, hJ⟩ => ?_, fun hp => ?_⟩, C18_items_long h hi⟩
  · by_contra hp
    rw [(C18_items_long h hi hp).1] at hJ; cases hJ
  · obtain ⟨J, hJ, -⟩ := C18_items h hi hp
    exact ⟨_, hJ⟩

/-- C67: on canonical tries the iterators work exactly if no key has more than 64 nibbles. -/
theorem C67_items_canonical (h : Live K M P kec s) (hi : s.hs[i]? = some t) (hc : t.Canonical) :
    (∃ J, t.items P = .ok J) ↔ ∀ k, t.contents k ≠ none → k.length ≤ 64 := by
  rw [(C67_items h hi).1]
  constructor
  · intro hp k hk
    exact bound_absL _ 64 k ((plain_bound t).2 hp) hk
  · intro hs
    exact (plain_bound t).1 ((plain_of_canonical t hc).bound hs)

/-! ## Examples -/

/-- Keys of 127 nibbles can be inserted and found. -/
example : ∀ (K : Kind) (P : Profile) (kec : Bytes → H256),
    K.obs P kec [.new, .insert 0 (1 :: List.replicate 126 5) (.val [7]),
      .insert 0 (2 :: List.replicate 126 5) (.val [8]), .get 0 (1 :: List.replicate 126 5),
      .get 0 (2 :: List.replicate 126 5), .get 0 (3 :: List.replicate 126 5)] =
      .ok [.unit, .unit, .unit, .val (some [7]), .val (some [8]), .val none] := by
  intro K ⟨P⟩ kec; cases K <;> cases P <;> kernel_rfl

/-- C67: with two keys of 65 nibbles that differ in the first nibble, deleting one of them panics. -/
theorem C67_delete_panics : ∀ (K : Kind) (P : Profile) (kec : Bytes → H256),
    K.obs P kec [.new, .insert 0 (1 :: List.replicate 64 5) (.val [7]),
      .insert 0 (2 :: List.replicate 64 5) (.val [8]), .delete 0 (1 :: List.replicate 64 5)] =
      .error .assertFailed := by
  intro K ⟨P⟩ kec; cases K <;> cases P <;> kernel_rfl

/-- If they differ in the second nibble, below a fork, deleting works. -/
example : ∀ (K : Kind) (P : Profile) (kec : Bytes → H256),
    K.obs P kec [.new, .insert 0 (1 :: 1 :: List.replicate 63 5) (.val [7]),
      .insert 0 (1 :: 2 :: List.replicate 63 5) (.val [8]), .insert 0 [2] (.val [9]),
      .delete 0 (1 :: 1 :: List.replicate 63 5), .get 0 (1 :: 2 :: List.replicate 63 5)] =
      .ok [.unit, .unit, .unit, .unit, .val (some [7]), .val (some [8])] := by
  intro K ⟨P⟩ kec; cases K <;> cases P <;> kernel_rfl

/-- C67: with a key of 65 nibbles `items()` panics. -/
theorem C67_items_panics : ∀ (K : Kind) (P : Profile) (kec : Bytes → H256),
    K.obs P kec [.new, .insert 0 (List.replicate 65 5) (.val [7]), .items 0] =
      .error .assertFailed := by
  intro K ⟨P⟩ kec; cases K <;> cases P <;> kernel_rfl

/-- C67: every sequence of 33 bytes is accepted as a key by `from_bytes_be`, and a value stored for it is
found; but then the iterators panic. -/
theorem C67_33_bytes (K : Kind) (P : Profile) (kec : Bytes → H256) (bs : Bytes) (hb : bs.length = 33)
    (v : Bytes) : ∃ n, fromBytesBE bs = .ok n ∧
      K.obs P kec [.new, .insert 0 n.toList (.val v), .get 0 n.toList] =
        .ok [.unit, .unit, .val (some v)] ∧
      K.obs P kec [.new, .insert 0 n.toList (.val v), .items 0] = .error .assertFailed := by
  obtain ⟨n, h1, -, h2⟩ := (C07_from_bytes_be bs).2.2 (by rintro rfl; simp at hb) (by omega)
  have hl : n.toList.length = 66 := by rw [h2, nibblesOfBytes_length]; omega
  refine ⟨n, h1, ?_, ?_⟩
  · rw [Kind.obs_exact K P kec (by simp [Cmd.Short, hl])]
    simp [PSys.run, PSys.exec, PSys.on, PSys.push, PSys.start, LNode.insert, LNode.get, Except.map,
      mkNode]
  · rw [Kind.obs_exact K P kec (by simp [Cmd.Short, hl])]
    simp [PSys.run, PSys.exec, PSys.on, PSys.push, PSys.start, LNode.insert, LNode.get, Except.map,
      mkNode, LNode.itemsA, LNode.Bound, hl]

/-- C67: 127 nibbles are the limit; inserting two different keys of 128 nibbles panics. -/
theorem C67_128 : ∀ (K : Kind) (P : Profile) (kec : Bytes → H256),
    K.obs P kec [.new, .insert 0 (1 :: List.replicate 127 5) (.val [7]),
      .insert 0 (2 :: List.replicate 127 5) (.val [8])] = .error .overflow := by
  intro K ⟨P⟩ kec; cases K <;> cases P <;> kernel_rfl

/-- The contents of the first example: the run of the remaining key has 65 nibbles. -/
example : (KMap.empty.put (2 :: List.replicate 64 5) (.val [8])).LongRun (1 :: List.replicate 64 5) := by
  refine ⟨[], 2 :: List.replicate 64 5, by simp, List.nil_prefix, by simp, by simp,
    ⟨2 :: List.replicate 64 5, by simp [put], List.prefix_rfl⟩, fun q hq _ => ?_⟩
  by_cases e : q = 2 :: List.replicate 64 5
  · rw [e]; exact List.prefix_rfl
  · exact absurd (by rw [put, if_neg e]; rfl) hq

end EthTrie
