import Verif.Trie.Abs
import Verif.Trie.Iter

/-!
# Inserting the empty value
-/

namespace EthTrie
namespace LNode

open KMap

theorem get_mkExt (P : Profile) (n k : Key) (c : LNode) :
    (mkExt n c).get P (n ++ k) = c.get P k := by
  cases n with
  | nil => rfl
  | cons d n => simp [mkExt, LNode.get]

theorem get_branch_upd (P : Profile) (cs : Fin 16 → LNode) (d : Fin 16) (c : LNode) (w : Bytes)
    (k : Key) : (LNode.branch (upd cs d c) w).get P (d :: k) = c.get P k := by
  simp [LNode.get]

/-- After a successful insertion of the empty value under `k` the lookup of `k` returns it exactly
if nothing is stored below `k`. -/
theorem insert_empty_get (P : Profile) : ∀ (l : LNode) (k : Key) (l' : LNode), l.Canon →
    l.insert k (.val []) = .ok l' → (l'.get P k = .ok (some []) ↔ ¬ Below (absL l) k) := by
  intro l
  induction l with
  | empty =>
    intro k l' _ h
    cases h
    simp [mkNode, LNode.get, Below]
  | hash x => intro k l' _ h; cases h
  | branch cs w ih =>
    intro k l' hc h
    cases k with
    | nil =>
      cases h
      have := hc.branch_below
      simp [LNode.get, this]
    | cons d k =>
      simp only [insert, R_bind_eq_ok] at h
      obtain ⟨c, h1, h2⟩ := h
      cases h2
      rw [get_branch_upd, ih d k c (hc.1 d) h1, ← absL_branch_sub cs w d, below_sub]
      rfl
  | ext n c ih =>
    intro k l' hc h
    obtain ⟨hn, hb, hcc⟩ := hc
    simp only [insert] at h
    split at h
    · rename_i hpre
      simp only [R_bind_eq_ok] at h
      obtain ⟨c', h1, h2⟩ := h
      cases h2
      by_cases hnk : n <+: k
      · obtain ⟨k, rfl⟩ := hnk
        rw [List.drop_left] at h1
        rw [show (LNode.ext n c').get P (n ++ k) = c'.get P k by simp [LNode.get], ih k c' hcc h1,
          ← absL_ext_sub n c, below_sub]
      · have hkn : k <+: n := hpre.resolve_left hnk
        have hlt : ¬ n.length ≤ k.length := fun h => hnk (hkn.eq_of_length_le h ▸ List.prefix_rfl)
        have hbel := below_ext hcc hb hkn (by rintro rfl; exact hnk List.prefix_rfl)
        simp only [hbel, not_true_eq_false, iff_false]
        rw [List.drop_eq_nil_of_le (by omega)] at h1
        cases c with
        | hash x => cases h1
        | branch cs w =>
          cases h1
          simp only [LNode.get, if_neg hlt]
          split
          · simp
          · split <;> simp
        | empty => exact hb.elim
        | ext _ _ => exact hb.elim
        | leaf _ _ => exact hb.elim
    · rename_i hpre
      obtain ⟨p, n', k', rfl, rfl, hp, hd⟩ := cpl_split n k
      rw [hp] at h
      simp only [List.drop_left, List.take_left] at h
      cases n' with
      | nil => simp at hpre
      | cons e nr =>
        cases k' with
        | nil => simp at hpre
        | cons d kr =>
          cases h
          rw [get_mkExt, get_branch_upd]
          simp only [mkNode, LNode.get]
          have hbel : ¬ Below (absL (.ext (p ++ e :: nr) c)) (p ++ d :: kr) := by
            rintro ⟨x, r, hr⟩
            obtain ⟨s, hs, _⟩ := absL_ext_some hr
            simp at hs
            exact hd e nr d kr rfl rfl hs.1.symm
          simp [hbel]
  | leaf n w =>
    intro k l' _ h
    simp only [insert] at h
    split at h
    · rename_i hnk
      subst hnk
      cases h
      simp [LNode.get, Below, absL_leaf]
    · rename_i hne
      obtain ⟨p, n', k', rfl, rfl, hp, hd⟩ := cpl_split n k
      rw [hp] at h
      simp only [List.drop_left, List.take_left] at h
      cases n' with
      | nil =>
        cases k' with
        | nil => simp at hne
        | cons d kr =>
          cases h
          rw [get_mkExt, get_branch_upd]
          simp [mkNode, LNode.get, Below, absL_leaf]
      | cons e nr =>
        cases k' with
        | nil =>
          cases h
          rw [get_mkExt]
          have : Below (absL (.leaf (p ++ e :: nr) w)) p := ⟨e, nr, by simp [absL_leaf]⟩
          simp [LNode.get, this]
        | cons d kr =>
          cases h
          rw [get_mkExt, get_branch_upd]
          have hbel : ¬ Below (absL (.leaf (p ++ e :: nr) w)) (p ++ d :: kr) := by
            rintro ⟨x, r, hr⟩
            rw [absL_leaf] at hr
            split at hr
            · rename_i hs
              simp at hs
              exact hd e nr d kr rfl rfl hs.1.symm
            · exact hr rfl
          simp [mkNode, LNode.get, hbel]

end LNode
end EthTrie
