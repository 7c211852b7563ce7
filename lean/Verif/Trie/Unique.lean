import Verif.Trie.Abs

/-!
# Canonical tries are determined by their contents
-/

namespace EthTrie
namespace LNode

open KMap

theorem branch_not_one_dir {cs : Fin 16 → LNode} {v : Bytes} (hc : Canon (.branch cs v))
    (d : Fin 16) (h : ∀ q, absL (.branch cs v) q ≠ none → ∃ r, q = d :: r) : False := by
  rcases hc.2 with ⟨i, j, hij, hi, hj⟩ | ⟨hv, _⟩
  · obtain ⟨r, hr⟩ := (hc.1 i).exists_key hi
    obtain ⟨s, hs⟩ := (hc.1 j).exists_key hj
    obtain ⟨_, h1⟩ := h (i :: r) hr
    obtain ⟨_, h2⟩ := h (j :: s) hs
    simp only [List.cons.injEq] at h1 h2
    exact hij (h1.1.trans h2.1.symm)
  · obtain ⟨r, hr⟩ := h [] (by simp [hv])
    simp at hr

theorem ext_branch_prefix {n n' : Key} {cs : Fin 16 → LNode} {v : Bytes} {c' : LNode}
    (hc : Canon (.branch cs v)) (h : absL (.ext n (.branch cs v)) = absL (.ext n' c'))
    (hp : n <+: n') : n = n' := by
  obtain ⟨s, rfl⟩ := hp
  cases s with
  | nil => simp
  | cons d s =>
    exfalso
    refine branch_not_one_dir hc d fun q hq => ?_
    rw [← absL_ext_append n, h] at hq
    obtain ⟨r, hr, _⟩ := absL_ext_some hq
    rw [List.append_assoc] at hr
    exact ⟨s ++ r, by simpa using List.append_cancel_left hr⟩

theorem canon_unique : ∀ (l1 l2 : LNode), l1.Canon → l2.Canon → absL l1 = absL l2 → l1 = l2 := by
  intro l1
  induction l1 with
  | empty =>
    intro l2 _ h2 h
    by_contra hne
    obtain ⟨q, hq⟩ := h2.exists_key (fun h => hne h.symm)
    rw [← h] at hq; simp at hq
  | hash x =>
    intro l2 _ h2 h
    have h0 := congrFun h []
    cases l2 with
    | empty => simp [absL_hash] at h0
    | hash y => simpa [absL_hash] using h0
    | branch cs v =>
      simp only [absL_hash, if_true, absL_branch_nil] at h0
      split at h0 <;> simp at h0
    | ext n c =>
      have : absL (.ext n c) [] = none := absL_ext_none (by simpa using h2.1)
      rw [this] at h0; simp [absL_hash] at h0
    | leaf n v =>
      simp only [absL_hash, if_true, absL_leaf] at h0
      split at h0 <;> simp at h0
  | leaf n v =>
    intro l2 _ h2 h
    have h0 := congrFun h n
    have honly : ∀ q, absL l2 q ≠ none → q = n := by
      intro q hq
      rw [← h, absL_leaf] at hq
      by_contra hqn
      rw [if_neg hqn] at hq; exact hq rfl
    simp only [absL_leaf, if_true] at h0
    cases l2 with
    | empty => simp at h0
    | hash y => rw [absL_hash] at h0; split at h0 <;> simp at h0
    | branch cs w =>
      obtain ⟨r, hr1, hr2⟩ := h2.branch_two n
      exact absurd (honly r hr2) hr1
    | ext m c =>
      exfalso
      refine ext_not_lone (n := m) h2.2.2 h2.2.1 List.nil_prefix ⟨n, v, h0.symm, ?_⟩
      intro r hr; exact honly r hr
    | leaf m w =>
      rw [absL_leaf] at h0
      split at h0
      · next he => subst he; simpa using h0
      · simp at h0
  | branch cs v ih =>
    intro l2 h1 h2 h
    cases l2 with
    | empty => obtain ⟨r, _, hr⟩ := h1.branch_two []; rw [h] at hr; simp at hr
    | hash y =>
      have h0 := congrFun h []
      simp only [absL_hash, if_true, absL_branch_nil] at h0
      split at h0 <;> simp at h0
    | leaf n w =>
      obtain ⟨r, hr1, hr⟩ := h1.branch_two n
      rw [h, absL_leaf, if_neg hr1] at hr; exact absurd rfl hr
    | ext n c =>
      exfalso
      cases n with
      | nil => exact h2.1 rfl
      | cons d n =>
        refine branch_not_one_dir h1 d fun q hq => ?_
        rw [h] at hq
        obtain ⟨r, hr, _⟩ := absL_ext_some hq
        exact ⟨n ++ r, hr⟩
    | branch ds w =>
      have hcs : cs = ds := by
        funext i
        exact ih i (ds i) (h1.1 i) (h2.1 i) (funext fun q => congrFun h (i :: q))
      have h0 := congrFun h []
      simp only [absL_branch_nil] at h0
      have hvw : v = w := by
        split at h0 <;> split at h0 <;> simp_all
      rw [hcs, hvw]
  | ext n c ih =>
    intro l2 h1 h2 h
    cases l2 with
    | empty =>
      obtain ⟨r, hr⟩ := Canon.exists_key h1 (by simp); rw [h] at hr; simp at hr
    | hash y =>
      have h0 := congrFun h []
      rw [absL_ext_none (by simpa using h1.1)] at h0
      simp [absL_hash] at h0
    | leaf m w =>
      exfalso
      refine ext_not_lone (n := n) h1.2.2 h1.2.1 List.nil_prefix ⟨m, w, ?_, ?_⟩
      · have := congrFun h m
        simpa [absL_leaf] using this
      · intro r hr
        rw [h] at hr
        by_contra hrm
        simp only [List.nil_append, absL_leaf, if_neg hrm] at hr; exact hr rfl
    | branch ds w =>
      exfalso
      cases n with
      | nil => exact h1.1 rfl
      | cons d n =>
        refine branch_not_one_dir h2 d fun q hq => ?_
        rw [← h] at hq
        obtain ⟨r, hr, _⟩ := absL_ext_some hq
        exact ⟨n ++ r, hr⟩
    | ext n' c' =>
      obtain ⟨hn, hb, hcc⟩ := h1
      obtain ⟨hn', hb', hcc'⟩ := h2
      have hcomp : n <+: n' ∨ n' <+: n := by
        obtain ⟨q, hq⟩ := hcc.exists_key (by rintro rfl; exact hb)
        rw [← absL_ext_append n, h] at hq
        obtain ⟨r, hr, _⟩ := absL_ext_some hq
        exact List.prefix_or_prefix_of_prefix ⟨q, rfl⟩ ⟨r, hr.symm⟩
      have hnn : n = n' := by
        cases c with
        | empty => exact hb.elim
        | ext => exact hb.elim
        | leaf => exact hb.elim
        | branch cs v =>
          cases c' with
          | empty => exact hb'.elim
          | ext => exact hb'.elim
          | leaf => exact hb'.elim
          | branch cs' v' =>
            rcases hcomp with hp | hp
            · exact ext_branch_prefix hcc h hp
            · exact (ext_branch_prefix hcc' h.symm hp).symm
          | hash y =>
            exfalso
            obtain ⟨r, _, hr⟩ := hcc.branch_two []
            have h0 := congrFun h n'
            have h1' := absL_ext_append n' (.hash y) []
            simp only [List.append_nil] at h1'
            rw [h1', absL_hash, if_pos rfl] at h0
            -- every key is `n'`
            have hone : ∀ q, absL (.branch cs v) q ≠ none → n ++ q = n' := by
              intro q hq
              rw [← absL_ext_append n, h] at hq
              obtain ⟨s, hs, hs'⟩ := absL_ext_some hq
              rw [absL_hash] at hs'
              by_cases hse : s = []
              · rw [hs, hse, List.append_nil]
              · rw [if_neg hse] at hs'; exact absurd rfl hs'
            obtain ⟨r1, hr1, hr1'⟩ := hcc.branch_two r
            exact hr1 (List.append_cancel_left ((hone r1 hr1').trans (hone r hr).symm))
        | hash x =>
          have hx := absL_ext_append n (.hash x) []
          simp only [List.append_nil] at hx
          rw [h, absL_hash, if_pos rfl] at hx
          cases c' with
          | empty => exact hb'.elim
          | ext => exact hb'.elim
          | leaf => exact hb'.elim
          | hash y =>
            obtain ⟨s, hs, hs'⟩ := absL_ext_some (by rw [hx]; simp)
            rw [absL_hash] at hs'
            by_cases hse : s = []
            · rw [hs, hse, List.append_nil]
            · rw [if_neg hse] at hs'; exact absurd rfl hs'
          | branch cs' v' =>
            exfalso
            have hone : ∀ q, absL (.branch cs' v') q ≠ none → n' ++ q = n := by
              intro q hq
              rw [← absL_ext_append n', ← h] at hq
              obtain ⟨s, hs, hs'⟩ := absL_ext_some hq
              rw [absL_hash] at hs'
              by_cases hse : s = []
              · rw [hs, hse, List.append_nil]
              · rw [if_neg hse] at hs'; exact absurd rfl hs'
            obtain ⟨r, _, hr⟩ := hcc'.branch_two []
            obtain ⟨r1, hr1, hr1'⟩ := hcc'.branch_two r
            exact hr1 (List.append_cancel_left ((hone r1 hr1').trans (hone r hr).symm))
      subst hnn
      have : c = c' := ih c' hcc hcc' (by rw [← absL_ext_sub n c, ← absL_ext_sub n c', h])
      rw [this]

end LNode
end EthTrie
