import Verif.Spec.YP
import Verif.Trie.Unique

/-!
# The encoding of canonical tries is the yellow paper's
-/

namespace EthTrie

open Spec

theorem rlpLenBytes_eq (n : Nat) (h : 0 < n) : rlpLenBytes n = be n := by
  induction n using Nat.strong_induction_on with
  | _ n ih =>
    rw [rlpLenBytes, be, Nat.digits_def' (by decide) h]
    split
    · rename_i h1
      rw [Nat.div_eq_of_lt h1, Nat.mod_eq_of_lt h1]; simp
    · rw [ih (n / 256) (by omega) (by omega), be]
      simp

theorem rlpValue_eq (x : Bytes) : rlpValue x = rlpStr x := by
  unfold rlpValue rlpStr rlpHeader
  split
  · rename_i b
    simp only [List.length_singleton, bytesVal_cons, bytesVal_nil]
    by_cases h : b.toNat < 128
    · simp [h]
    · simp [h]
  · rename_i hx
    have h1 : x.length ≠ 1 := fun h => by
      obtain ⟨b, rfl⟩ := List.length_eq_one_iff.1 h
      exact hx b rfl
    simp only [h1, false_and, if_false]
    split
    · rfl
    · rw [rlpLenBytes_eq _ (by omega)]; simp

theorem rlpList_eq (xs : List Bytes) : rlpList xs = rlpSeq xs := by
  unfold rlpList rlpSeq rlpHeader
  simp only
  split
  · rfl
  · rw [rlpLenBytes_eq _ (by omega)]; simp

theorem hashIfLarge_item (kec : Bytes → H256) (b : Bytes) :
    (hashIfLarge kec b).item = if b.length < 32 then b else rlpStr (kec b).toList := by
  unfold hashIfLarge
  by_cases h : b.length < 32
  · have : decide (b.length ≥ 32) = false := by simp; omega
    simp [this, EncodedNode.item, h]
  · have : decide (b.length ≥ 32) = true := by simp; omega
    simp only [this, EncodedNode.item, h, if_false, rlpValue_eq]

theorem hashIfLarge_toH256 (kec : Bytes → H256) (b : Bytes) :
    (hashIfLarge kec b).toH256 kec = kec b := by
  unfold hashIfLarge
  split <;> rfl

/-! ### Lists of entries -/

namespace Spec

theorem Lists.ne {J : Entries} {m : KMap} (h : Lists J m) {k : Key} (hk : m k ≠ none) : J ≠ [] := by
  rintro rfl
  obtain ⟨v, hv⟩ := Option.ne_none_iff_exists'.1 hk
  simpa using (h.2 k v).2 hv

theorem Lists.nil {J : Entries} {m : KMap} (h : Lists J m) (hm : ∀ k, m k = none) : J = [] := by
  cases J with
  | nil => rfl
  | cons x J => have := (h.2 x.1 x.2).1 (by simp); simp [hm] at this

theorem Lists.single {J : Entries} {m : KMap} (h : Lists J m) {k : Key} {v : ValOrHash}
    (hv : m k = some v) (hm : ∀ q, m q ≠ none → q = k) : J = [(k, v)] := by
  have hall : ∀ x ∈ J, x = (k, v) := by
    rintro ⟨q, w⟩ hx
    have hw := (h.2 q w).1 hx
    have hq : q = k := hm q (by simp [hw])
    subst hq
    rw [hv] at hw; cases hw; rfl
  have hn := h.1
  have hmem := (h.2 k v).2 hv
  cases J with
  | nil => simp at hmem
  | cons x J =>
    cases J with
    | nil => rw [hall x (by simp)]
    | cons y J =>
      exfalso
      rw [hall x (by simp), hall y (by simp)] at hn
      simp at hn

theorem Lists.two {J : Entries} {m : KMap} (h : Lists J m) {k q : Key} (hne : k ≠ q)
    (hk : m k ≠ none) (hq : m q ≠ none) : ∃ x y J', J = x :: y :: J' := by
  obtain ⟨v, hv⟩ := Option.ne_none_iff_exists'.1 hk
  obtain ⟨w, hw⟩ := Option.ne_none_iff_exists'.1 hq
  have h1 := (h.2 k v).2 hv
  have h2 := (h.2 q w).2 hw
  match J, h1, h2 with
  | [], h1, _ => simp at h1
  | [x], h1, h2 =>
    simp only [List.mem_singleton] at h1 h2
    rw [← h1] at h2
    exact absurd (congrArg Prod.fst h2).symm hne
  | x :: y :: J', _, _ => exact ⟨x, y, J', rfl⟩

theorem mem_under {J : Entries} {d : Fin 16} {r : Key} {v : ValOrHash} :
    (r, v) ∈ under J d ↔ (d :: r, v) ∈ J := by
  unfold under
  rw [List.mem_filterMap]
  constructor
  · rintro ⟨⟨k, w⟩, hx, h⟩
    cases k with
    | nil => simp at h
    | cons e k =>
      by_cases he : e = d
      · simp [he] at h; rw [← h.1, ← h.2, ← he]; exact hx
      · simp [he] at h
  · intro h
    exact ⟨_, h, by simp⟩

theorem Lists.under {J : Entries} {m : KMap} (h : Lists J m) (d : Fin 16) :
    Lists (Spec.under J d) (m.sub [d]) := by
  refine ⟨?_, fun k v => by rw [mem_under, h.2]; rfl⟩
  have hn : J.Pairwise fun x y => x.1 ≠ y.1 := List.pairwise_map.1 h.1
  refine List.pairwise_map.2 ?_
  unfold Spec.under
  rw [List.pairwise_filterMap]
  refine hn.imp ?_
  rintro ⟨a, v⟩ ⟨b, w⟩ hab ⟨r, x⟩ hx ⟨s, y⟩ hy
  cases a with
  | nil => simp at hx
  | cons e a =>
    cases b with
    | nil => simp at hy
    | cons f b =>
      simp only [Option.ite_none_right_eq_some, Option.some.injEq, Prod.mk.injEq] at hx hy
      rw [← hx.2.1, ← hy.2.1]
      rintro rfl
      exact hab (by rw [hx.1, hy.1])

theorem Lists.strip {J : Entries} {m : KMap} (h : Lists J m) (n : Key)
    (hn : ∀ k, m k ≠ none → n <+: k) : Lists (Spec.strip J n.length) (m.sub n) := by
  have hpre : ∀ x ∈ J, ∃ r, x.1 = n ++ r := fun x hx => by
    obtain ⟨r, hr⟩ := hn x.1 (by rw [(h.2 x.1 x.2).1 hx]; simp)
    exact ⟨r, hr.symm⟩
  constructor
  · have hd : J.Pairwise fun x y => x.1 ≠ y.1 := List.pairwise_map.1 h.1
    refine List.pairwise_map.2 (List.pairwise_map.2 ?_)
    refine List.Pairwise.imp_of_mem ?_ hd
    intro x y hx hy hxy heq
    obtain ⟨r, hr⟩ := hpre x hx
    obtain ⟨s, hs⟩ := hpre y hy
    apply hxy
    simp only [hr, hs, List.drop_left] at heq ⊢
    rw [heq]
  · intro k v
    unfold Spec.strip
    rw [List.mem_map]
    constructor
    · rintro ⟨x, hx, he⟩
      obtain ⟨r, hr⟩ := hpre x hx
      rw [hr, List.drop_left] at he
      cases he
      have := (h.2 x.1 x.2).1 hx
      rw [hr] at this; exact this
    · intro hk
      exact ⟨(n ++ k, v), (h.2 _ _).2 hk, by simp⟩

theorem prefix_take_cpl {p : Key} : ∀ {a b : Key}, p <+: a → p <+: b → p <+: a.take (cpl a b) := by
  intro a b ⟨s, hs⟩ ⟨t, ht⟩
  subst hs; subst ht
  rw [cpl_append, List.take_append, List.take_of_length_le (by omega)]
  exact List.prefix_append _ _

theorem prefix_lcp {p : Key} : ∀ {J : Entries}, J ≠ [] → (∀ x ∈ J, p <+: x.1) → p <+: lcp J
  | [], h, _ => absurd rfl h
  | [x], _, h => h x (by simp)
  | x :: y :: J, _, h =>
    prefix_take_cpl (h x (by simp)) (prefix_lcp (by simp) fun z hz => h z (List.mem_cons_of_mem _ hz))

theorem Lists.here {J : Entries} {m : KMap} (h : Lists J m) :
    Spec.here J = match m [] with | some (.val v) => v | _ => [] := by
  unfold Spec.here
  cases hf : J.find? fun x => x.1 = [] with
  | none =>
    have hm : m [] = none := by
      by_contra hne
      obtain ⟨v, hv⟩ := Option.ne_none_iff_exists'.1 hne
      have := List.find?_eq_none.1 hf _ ((h.2 [] v).2 hv)
      simp at this
    simp [hm]
  | some x =>
    have h1 := List.mem_of_find?_eq_some hf
    have h2 := List.find?_some hf
    obtain ⟨k, v⟩ := x
    simp only [decide_eq_true_eq] at h2
    subst h2
    rw [(h.2 [] v).1 h1]
    cases v <;> rfl

theorem refer_two (kec : Bytes → H256) (x y : Key × ValOrHash) (J : Entries) (c : Bytes) :
    refer kec (x :: y :: J) c = if c.length < 32 then c else rlpStr (kec c).toList := by
  unfold refer
  split
  · rename_i h; simp at h
  · rename_i h; simp at h
  · rfl

end Spec

namespace LNode

open KMap

/-- What the encoding of a node is for the entries `J`. -/
def EncSpec (kec : Bytes → H256) (l : LNode) (J : Entries) : Prop :=
  (enc kec l).item = refer kec J (node kec J) ∧ (enc kec l).toH256 kec = trieRoot kec J ∧
    (l ≠ .empty → (∀ x, l ≠ .hash x) → enc kec l = hashIfLarge kec (node kec J))

theorem encSpec_of {kec : Bytes → H256} {l : LNode} {J : Entries}
    (h : enc kec l = hashIfLarge kec (node kec J)) (hJ : J ≠ []) (hh : ∀ x, J ≠ [([], .hash x)]) :
    EncSpec kec l J := by
  refine ⟨?_, ?_, fun _ _ => h⟩
  · rw [h, hashIfLarge_item, refer]
    · exact hJ
    · exact hh
  · rw [h, hashIfLarge_toH256, trieRoot]
    exact hh

theorem enc_spec (kec : Bytes → H256) : ∀ (l : LNode) (J : Entries), l.Canon → Lists J (absL l) →
    EncSpec kec l J := by
  intro l
  induction l with
  | empty =>
    intro J _ hJ
    rw [hJ.nil (by simp)]
    refine ⟨?_, ?_, by simp⟩
    · simp [enc, EncodedNode.item, refer, rlpStr]
    · simp [enc, EncodedNode.toH256, trieRoot, node, rlpStr]
  | hash h =>
    intro J _ hJ
    rw [hJ.single (k := []) (v := .hash h) (by simp [absL_hash]) (by simp +contextual [absL_hash])]
    refine ⟨?_, ?_, by simp⟩
    · simp [enc, EncodedNode.item, refer, rlpValue_eq]
    · simp [enc, EncodedNode.toH256, trieRoot]
  | leaf n v =>
    intro J _ hJ
    rw [hJ.single (k := n) (v := .val v) (by simp [absL_leaf]) (by simp +contextual [absL_leaf])]
    exact encSpec_of (by rw [enc, node, rlpList_eq, rlpValue_eq, rlpValue_eq]) (by simp) (by simp)
  | branch cs v ih =>
    intro J hc hJ
    obtain ⟨d, r, hr⟩ := hc.branch_below
    obtain ⟨k, q, hne, hk, hq⟩ : ∃ k q, k ≠ q ∧ absL (.branch cs v) k ≠ none ∧
        absL (.branch cs v) q ≠ none := by
      rcases hc.2 with ⟨i, j, hij, hi, hj⟩ | ⟨hv, i, hi⟩
      · obtain ⟨r, hr⟩ := (hc.1 i).exists_key hi
        obtain ⟨s, hs⟩ := (hc.1 j).exists_key hj
        exact ⟨i :: r, j :: s, by simp [hij], hr, hs⟩
      · obtain ⟨r, hr⟩ := (hc.1 i).exists_key hi
        exact ⟨[], i :: r, by simp, by simp [hv], hr⟩
    obtain ⟨x, y, J', hJe⟩ := hJ.two hne hk hq
    have hl : lcp J = [] := by
      cases hlc : lcp J with
      | nil => rfl
      | cons d s =>
        exfalso
        refine branch_not_one_dir hc d fun q hq => ?_
        obtain ⟨w, hw⟩ := Option.ne_none_iff_exists'.1 hq
        obtain ⟨t, ht⟩ := lcp_prefix J _ ((hJ.2 q w).2 hw)
        rw [hlc] at ht
        exact ⟨s ++ t, by simpa using ht.symm⟩
    have hhere : here J = v := by
      rw [hJ.here]
      by_cases hv : v = [] <;> simp [hv]
    have hch : ∀ i, (enc kec (cs i)).item = refer kec (under J i) (node kec (under J i)) := fun i =>
      (ih i _ (hc.1 i) (by have := hJ.under i; rwa [absL_branch_sub] at this)).1
    refine encSpec_of ?_ (by simp [hJe]) (by simp [hJe])
    rw [enc, rlpList_eq]
    simp only [hch]
    have hv : (if v = [] then [0x80] else rlpValue v) = rlpStr (here J) := by
      rw [hhere]; split
      · rename_i h; subst h; rfl
      · exact rlpValue_eq v
    rw [hv]
    subst hJe
    conv => rhs; rw [node]
    rw [dif_neg (by simp [hl])]
  | ext n c ih =>
    intro J hc hJ
    obtain ⟨hn, hb, hcc⟩ := hc
    cases c with
    | empty => exact absurd hb id
    | ext _ _ => exact absurd hb id
    | leaf _ _ => exact absurd hb id
    | hash h =>
      have : J = [(n, .hash h)] := by
        refine hJ.single ?_ ?_
        · have := absL_ext_append n (.hash h) []
          rw [List.append_nil] at this; rw [this]; simp [absL_hash]
        · intro q hq
          obtain ⟨r, rfl, hr⟩ := absL_ext_some hq
          have : r = [] := by by_contra h0; exact hr (by simp [absL_hash, h0])
          simp [this]
      subst this
      refine encSpec_of ?_ (by simp) (by simp [hn])
      rw [enc, node, rlpList_eq, rlpValue_eq, enc, EncodedNode.item, rlpValue_eq]
    | branch cs v =>
      have hpre : ∀ k, absL (.ext n (.branch cs v)) k ≠ none → n <+: k := fun k hk => by
        obtain ⟨r, rfl, _⟩ := absL_ext_some hk
        exact List.prefix_append _ _
      have hJs := hJ.strip n hpre
      rw [absL_ext_sub] at hJs
      obtain ⟨x, y, J', hJe⟩ : ∃ x y J', J = x :: y :: J' := by
        obtain ⟨d, r, hr⟩ := hcc.branch_below
        obtain ⟨k, q, hne, hk, hq⟩ : ∃ k q, k ≠ q ∧ absL (.branch cs v) k ≠ none ∧
            absL (.branch cs v) q ≠ none := by
          rcases hcc.2 with ⟨i, j, hij, hi, hj⟩ | ⟨hv, i, hi⟩
          · obtain ⟨r, hr⟩ := (hcc.1 i).exists_key hi
            obtain ⟨s, hs⟩ := (hcc.1 j).exists_key hj
            exact ⟨i :: r, j :: s, by simp [hij], hr, hs⟩
          · obtain ⟨r, hr⟩ := (hcc.1 i).exists_key hi
            exact ⟨[], i :: r, by simp, by simp [hv], hr⟩
        exact hJ.two (k := n ++ k) (q := n ++ q) (by simpa using hne) (by simpa using hk)
          (by simpa using hq)
      have hl : lcp J = n := by
        obtain ⟨s, hs⟩ := prefix_lcp (p := n) (J := J) (by simp [hJe]) fun x hx =>
          hpre x.1 (by rw [(hJ.2 x.1 x.2).1 hx]; simp)
        cases s with
        | nil => simpa using hs.symm
        | cons d s =>
          exfalso
          refine branch_not_one_dir hcc d fun q hq => ?_
          rw [← absL_ext_append n] at hq
          obtain ⟨w, hw⟩ := Option.ne_none_iff_exists'.1 hq
          obtain ⟨t, ht⟩ := lcp_prefix J _ ((hJ.2 _ w).2 hw)
          rw [← hs, List.append_assoc] at ht
          exact ⟨s ++ t, by simpa using (List.append_cancel_left ht).symm⟩
      refine encSpec_of ?_ (by simp [hJe]) (by simp [hJe])
      rw [enc, rlpList_eq, rlpValue_eq, (ih _ hcc hJs).1]
      subst hJe
      conv => rhs; rw [node]
      rw [dif_pos (by rw [hl]; exact hn)]
      simp only [hl]

theorem rootHash_spec (kec : Bytes → H256) {l : LNode} {J : Entries} (hc : l.Canon)
    (hJ : Lists J (absL l)) : l.rootHash kec = trieRoot kec J := (enc_spec kec l J hc hJ).2.1

end LNode
end EthTrie
