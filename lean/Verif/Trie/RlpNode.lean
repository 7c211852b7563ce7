import Verif.Trie.Commit
import Verif.Trie.ItemsAbs
import Verif.Subset.Cut

/-!
# The RLP of a node, from its contents

Collisions between nodes of two tries are collisions between encodings of parts of their contents.
-/

namespace EthTrie
namespace LNode

open Spec KMap

variable {kec : Bytes → H256}

theorem rlp_node {l : LNode} {J : Entries} (hc : l.Canon) (hJ : Lists J (absL l)) (hh : ¬ l.IsHash) :
    l.rlp kec = node kec J := by
  cases l with
  | empty => rw [hJ.nil (by simp), rlp, node]
  | hash h => exact absurd trivial hh
  | leaf n v =>
    rw [hJ.single (k := n) (v := .val v) (by simp [absL_leaf]) (by simp +contextual [absL_leaf]), rlp, node]
  | branch cs v =>
    obtain ⟨d, r, hr⟩ := hc.branch_below
    obtain ⟨k, q, hne, hk, hq⟩ : ∃ k q, k ≠ q ∧ absL (.branch cs v) k ≠ none ∧
        absL (.branch cs v) q ≠ none := by
      rcases hc.2 with ⟨i, j, hij, hi, hj⟩ | ⟨hv, i, hi⟩
      · obtain ⟨r, hr⟩ := (hc.1 i).exists_key hi
        obtain ⟨s, hs⟩ := (hc.1 j).exists_key hj
        exact ⟨i :: r, j :: s, by simp [hij], hr, hs⟩
      · obtain ⟨r, hr⟩ := (hc.1 i).exists_key hi
        exact ⟨[], i :: r, by simp, by simp [hv], hr⟩
    obtain ⟨x, y, J', hJe⟩ := hJ.two hne hk hq
    have hl : lcp J = [] := by
      cases hlc : lcp J with
      | nil => rfl
      | cons d s =>
        exfalso
        refine branch_not_one_dir hc d fun q hq => ?_
        obtain ⟨w, hw⟩ := Option.ne_none_iff_exists'.1 hq
        obtain ⟨t, ht⟩ := lcp_prefix J _ ((hJ.2 q w).2 hw)
        rw [hlc] at ht
        exact ⟨s ++ t, by simpa using ht.symm⟩
    have hhere : here J = v := by
      rw [hJ.here]
      by_cases hv : v = [] <;> simp [hv]
    have hch : ∀ i, (enc kec (cs i)).item = refer kec (under J i) (node kec (under J i)) := fun i =>
      (enc_spec kec _ _ (hc.1 i) (by have := hJ.under i; rwa [absL_branch_sub] at this)).1
    rw [rlp]
    simp only [hch]
    rw [← hhere]
    subst hJe
    conv => rhs; rw [node]
    rw [dif_neg (by simp [hl])]
  | ext n c =>
    obtain ⟨hn, hb, hcc⟩ := hc
    cases c with
    | empty => exact absurd hb id
    | ext _ _ => exact absurd hb id
    | leaf _ _ => exact absurd hb id
    | hash h =>
      have : J = [(n, .hash h)] := by
        refine hJ.single ?_ ?_
        · have := absL_ext_append n (.hash h) []
          rw [List.append_nil] at this; rw [this]; simp [absL_hash]
        · intro q hq
          obtain ⟨r, rfl, hr⟩ := absL_ext_some hq
          have : r = [] := by by_contra h0; exact hr (by simp [absL_hash, h0])
          simp [this]
      subst this
      rw [rlp, node, enc, EncodedNode.item, rlpValue_eq]
    | branch cs v =>
      have hpre : ∀ k, absL (.ext n (.branch cs v)) k ≠ none → n <+: k := fun k hk => by
        obtain ⟨r, rfl, _⟩ := absL_ext_some hk
        exact List.prefix_append _ _
      have hJs := hJ.strip n hpre
      rw [absL_ext_sub] at hJs
      obtain ⟨x, y, J', hJe⟩ : ∃ x y J', J = x :: y :: J' := by
        obtain ⟨d, r, hr⟩ := hcc.branch_below
        obtain ⟨k, q, hne, hk, hq⟩ : ∃ k q, k ≠ q ∧ absL (.branch cs v) k ≠ none ∧
            absL (.branch cs v) q ≠ none := by
          rcases hcc.2 with ⟨i, j, hij, hi, hj⟩ | ⟨hv, i, hi⟩
          · obtain ⟨r, hr⟩ := (hcc.1 i).exists_key hi
            obtain ⟨s, hs⟩ := (hcc.1 j).exists_key hj
            exact ⟨i :: r, j :: s, by simp [hij], hr, hs⟩
          · obtain ⟨r, hr⟩ := (hcc.1 i).exists_key hi
            exact ⟨[], i :: r, by simp, by simp [hv], hr⟩
        exact hJ.two (k := n ++ k) (q := n ++ q) (by simpa using hne) (by simpa using hk)
          (by simpa using hq)
      have hl : lcp J = n := by
        obtain ⟨s, hs⟩ := prefix_lcp (p := n) (J := J) (by simp [hJe]) fun x hx =>
          hpre x.1 (by rw [(hJ.2 x.1 x.2).1 hx]; simp)
        cases s with
        | nil => simpa using hs.symm
        | cons d s =>
          exfalso
          refine branch_not_one_dir hcc d fun q hq => ?_
          rw [← absL_ext_append n] at hq
          obtain ⟨w, hw⟩ := Option.ne_none_iff_exists'.1 hq
          obtain ⟨t, ht⟩ := lcp_prefix J _ ((hJ.2 _ w).2 hw)
          rw [← hs, List.append_assoc] at ht
          exact ⟨s ++ t, by simpa using (List.append_cancel_left ht).symm⟩
      rw [rlp, (enc_spec kec _ _ hcc hJs).1]
      subst hJe
      conv => rhs; rw [node]
      rw [dif_pos (by rw [hl]; exact hn)]
      simp only [hl]

theorem Collide.contents {l m : LNode} (hl : l.Canon) (hm : m.Canon) (h : Collide kec l m) :
    KMap.Collide kec (absL l) (absL m) := by
  obtain ⟨q, x, y, h1, h2, h3, h4, h5, h6⟩ := h
  have hJ := items_lists x
  have hJ' := items_lists y
  rw [rlp_node (h1.canon hl) hJ h3, rlp_node (h2.canon hm) hJ' h4] at h5 h6
  refine ⟨q, _, _, ?_, ?_, h5, h6⟩
  · rwa [← at_sub h1]
  · rwa [← at_sub h2]

end LNode
end EthTrie
