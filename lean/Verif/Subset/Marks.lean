import Verif.Subset.View

/-!
# When marking succeeds, fails or panics, in terms of contents
-/

namespace EthTrie

open Spec KMap

namespace KMap

theorem RunsInto.of_sub {m : KMap} {n k r : Key} (h : RunsInto (m.sub n) k r) :
    RunsInto m (n ++ k) r := by
  obtain ⟨hr, q, x, rfl, hq⟩ := h
  exact ⟨hr, n ++ q, x, by simp, hq⟩

end KMap

namespace LTracked

open LNode

theorem mark_spec (P : Profile) : ∀ (t : LTracked) (k : Key), t.node.Canon →
    (P.overflowChecks = true → PathOK (absL t.node) k) →
    (∀ r, RunsInto (absL t.node) k r → t.mark P k = .ok (.error r)) ∧
    ((¬ ∃ r, RunsInto (absL t.node) k r) → ∃ t', t.mark P k = .ok (.ok t')) := by
  intro t
  induction t with
  | empty b =>
    intro k _ _
    refine ⟨?_, fun _ => ⟨_, rfl⟩⟩
    rintro r ⟨_, q, x, _, hq⟩
    simp [node] at hq
  | hash h b =>
    intro k _ _
    cases k with
    | nil =>
      refine ⟨?_, fun _ => ⟨_, rfl⟩⟩
      rintro r ⟨hr, q, x, he, _⟩
      simp at he; exact absurd he.2 hr
    | cons d k =>
      refine ⟨?_, fun hn => absurd ⟨d :: k, by simp, [], h, by simp, by simp [node, absL_hash]⟩ hn⟩
      rintro r ⟨hr, q, x, he, hq⟩
      have : q = [] := by by_contra h0; simp [node, absL_hash, h0] at hq
      subst this
      simp only [List.nil_append] at he
      subst he; rfl
  | leaf n v b =>
    intro k _ _
    refine ⟨?_, fun _ => ⟨_, rfl⟩⟩
    rintro r ⟨_, q, x, _, hq⟩
    simp only [node, absL_leaf] at hq
    split at hq <;> simp at hq
  | branch cs v b ih =>
    intro k hc hk
    cases k with
    | nil =>
      refine ⟨?_, fun _ => ⟨_, rfl⟩⟩
      rintro r ⟨hr, q, x, he, _⟩
      simp at he; exact absurd he.2 hr
    | cons d k =>
      have hs := absL_branch_sub (fun i => (cs i).node) v d
      obtain ⟨h1, h2⟩ := ih d k (hc.1 d) fun hP => by
        have := PathOK.sub (n := [d]) (k := k) (hk hP)
        rw [node, hs] at this; exact this
      constructor
      · rintro r ⟨hr, q, x, he, hq⟩
        cases q with
        | nil =>
          simp only [node, absL_branch_nil] at hq
          split at hq <;> simp at hq
        | cons e q =>
          simp only [List.cons_append, List.cons.injEq] at he
          obtain ⟨rfl, rfl⟩ := he
          simp only [mark, h1 r ⟨hr, q, x, rfl, hq⟩]; rfl
      · intro hn
        obtain ⟨t', ht⟩ := h2 fun ⟨r, hr⟩ => hn ⟨r, by
          have := RunsInto.of_sub (m := absL (node (branch cs v b))) (n := [d]) (k := k) (r := r)
            (by rw [node, hs]; exact hr)
          exact this⟩
        exact ⟨.branch (upd cs d t') v true, by simp only [mark, ht]; rfl⟩
  | ext n c b ih =>
    intro k hc hk
    obtain ⟨hn, hb, hcc⟩ := hc
    have hs := absL_ext_sub n c.node
    have hpre : ∀ r, RunsInto (absL (node (.ext n c b))) k r → n <+: k := by
      rintro r ⟨_, q, x, rfl, hq⟩
      obtain ⟨s, rfl, _⟩ := absL_ext_some (n := n) (c := c.node) (q := q)
        (by simp only [node] at hq; simp [hq])
      rw [List.append_assoc]; exact List.prefix_append _ _
    by_cases hle : n.length ≤ k.length
    · by_cases hp : n <+: k
      · obtain ⟨k', rfl⟩ := hp
        have hr : extRest P n (n ++ k') = .ok (some k') := by
          simp [extRest]
        obtain ⟨h1, h2⟩ := ih k' hcc fun hP => by
          have := PathOK.sub (n := n) (k := k') (hk hP)
          rw [node, hs] at this; exact this
        constructor
        · rintro r ⟨hr', q, x, he, hq⟩
          obtain ⟨s, rfl, _⟩ := absL_ext_some (n := n) (c := c.node) (q := q)
            (by simp only [node] at hq; simp [hq])
          simp only [node, absL_ext_append] at hq
          rw [List.append_assoc] at he
          have := h1 r ⟨hr', s, x, List.append_cancel_left he, hq⟩
          simp only [mark, hr, R_bind_ok, this]; rfl
        · intro hnr
          obtain ⟨t', ht⟩ := h2 fun ⟨r, hr⟩ => hnr ⟨r, by
            exact RunsInto.of_sub (m := absL (node (ext n c b))) (n := n) (k := k') (r := r)
              (by rw [node, hs]; exact hr)⟩
          exact ⟨.ext n t' true, by simp only [mark, hr, R_bind_ok, ht]; rfl⟩
      · refine ⟨fun r hr => absurd (hpre r hr) hp, fun _ => ⟨.ext n c true, ?_⟩⟩
        simp [mark, extRest, hle, hp]
    · refine ⟨fun r hr => absurd (hpre r hr).length_le hle, fun _ => ?_⟩
      by_cases hP : P.overflowChecks = true
      · exfalso
        refine ext_not_lone (n := n) (k := []) hcc hb List.nil_prefix ?_
        have hkn : absL (node (.ext n c b)) k = none := absL_ext_none fun h => hle h.length_le
        have := hk hP hkn [] n List.nil_prefix List.nil_prefix (by omega)
          (below_ext hcc hb List.nil_prefix (fun h => hn h.symm)) ?_
        · exact this
        · intro r hr _
          obtain ⟨s, rfl, _⟩ := absL_ext_some hr
          exact List.prefix_append _ _
      · by_cases h0 : n = List.replicate n.length 0
        · have hr : extRest P n k = .ok (some []) := by
            unfold extRest; rw [if_neg hle, if_neg hP, if_pos h0]
          obtain ⟨_, h2⟩ := ih [] hcc fun hP' => absurd hP' hP
          obtain ⟨t', ht⟩ := h2 (by
            rintro ⟨r, hr, q, x, he, _⟩
            simp at he; exact hr he.2)
          exact ⟨.ext n t' true, by simp only [mark, hr, R_bind_ok, ht]; rfl⟩
        · have hr : extRest P n k = .ok none := by
            unfold extRest; rw [if_neg hle, if_neg hP, if_neg h0]
          exact ⟨.ext n c true, by simp only [mark, hr, R_bind_ok]; rfl⟩

theorem _root_.EthTrie.KMap.not_firstErr {m : KMap} {ks : List Key}
    (h : ∀ k ∈ ks, ¬ ∃ r, RunsInto m k r) (r : Key) : ¬ m.FirstErr ks r := by
  rintro ⟨ks₁, k, ks₂, rfl, _, hr⟩
  exact h k (by simp) ⟨r, hr⟩

theorem markAll_spec (P : Profile) : ∀ (ks : List Key) (t : LTracked), t.node.Canon →
    (P.overflowChecks = true → ∀ k ∈ ks, PathOK (absL t.node) k) →
    (∃ r, (absL t.node).FirstErr ks r ∧ t.markAll P ks = .ok (.error r)) ∨
    ((∀ k ∈ ks, ¬ ∃ r, RunsInto (absL t.node) k r) ∧ ∃ t', t.markAll P ks = .ok (.ok t')) := by
  intro ks
  induction ks with
  | nil => intro t _ _; exact .inr ⟨by simp, t, rfl⟩
  | cons k ks ih =>
    intro t hc hk
    obtain ⟨h1, h2⟩ := mark_spec P t k hc fun hP => hk hP k (by simp)
    by_cases hr : ∃ r, RunsInto (absL t.node) k r
    · obtain ⟨r, hr⟩ := hr
      refine .inl ⟨r, ⟨[], k, ks, rfl, by simp, hr⟩, ?_⟩
      simp only [markAll, h1 r hr]; rfl
    · obtain ⟨t', ht⟩ := h2 hr
      have hn := mark_node P t k t' ht
      rcases ih t' (by rw [hn]; exact hc) (fun hP q hq => by
        rw [hn]; exact hk hP q (List.mem_cons_of_mem _ hq)) with ⟨r, ⟨a, x, b, rfl, hab, hx⟩, hm⟩ | ⟨h3, t'', hm⟩
      · rw [hn] at hab hx
        refine .inl ⟨r, ⟨k :: a, x, b, rfl, ?_, hx⟩, ?_⟩
        · intro q hq
          rcases List.mem_cons.1 hq with rfl | hq
          · exact hr
          · exact hab q hq
        · simp only [markAll, ht, R_bind_ok, hm]
      · rw [hn] at h3
        refine .inr ⟨?_, t'', by simp only [markAll, ht, R_bind_ok, hm]⟩
        intro q hq
        rcases List.mem_cons.1 hq with rfl | hq
        · exact hr
        · exact h3 q hq

end LTracked
end EthTrie
