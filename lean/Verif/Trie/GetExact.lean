import Verif.Trie.Abs
import Verif.Spec.Lookup

/-!
# Exact behaviour of lookups with overflow checks
-/

namespace EthTrie
namespace LNode

open KMap

theorem shown_sub {m : KMap} {n k : Key} {v : Bytes} (hn : ∀ q, q <+: n → q ≠ n → ∀ x, m q = some (.val x) → m.Below q) :
    Shown m (n ++ k) v ↔ Shown (m.sub n) k v := by
  simp only [Shown, KMap.sub, List.append_assoc]
  refine or_congr Iff.rfl (or_congr Iff.rfl ⟨?_, ?_⟩)
  · rintro ⟨q, hq, hm, hb⟩
    by_cases hqn : n <+: q
    · obtain ⟨s, rfl⟩ := hqn
      rw [List.prefix_append_right_inj] at hq
      exact ⟨s, hq, hm, fun h => hb (below_sub.1 h)⟩
    · exfalso
      have : q <+: n := by
        rcases List.prefix_or_prefix_of_prefix hq (List.prefix_append n k) with h | h
        · exact h
        · exact (hqn h).elim
      exact hb (hn q this (by rintro rfl; exact hqn List.prefix_rfl) v hm)
  · rintro ⟨q, hq, hm, hb⟩
    exact ⟨n ++ q, (List.prefix_append_right_inj n).2 hq, hm, fun h => hb (below_sub.2 h)⟩

theorem stops_sub {m : KMap} {n k : Key}
    (hn : ∀ q p, q <+: n → q ≠ n → q <+: p → (∀ r, m r ≠ none → q <+: r → p <+: r) → p <+: n ++ k) :
    StopsInside m (n ++ k) ↔ StopsInside (m.sub n) k := by
  constructor
  · rintro ⟨q, p, hq, hqp, hl, hb, ha, hlone⟩
    by_cases hqn : n <+: q
    · obtain ⟨s, rfl⟩ := hqn
      obtain ⟨s', rfl⟩ := hqp
      rw [List.prefix_append_right_inj] at hq
      refine ⟨s, s ++ s', hq, List.prefix_append _ _, by simpa [Nat.add_assoc] using hl, below_sub.2 hb, ?_, fun h => hlone (loneVal_sub.1 h)⟩
      intro r hr hsr
      have := ha (n ++ r) hr ((List.prefix_append_right_inj n).2 hsr)
      rw [List.append_assoc, List.prefix_append_right_inj] at this
      exact this
    · exfalso
      have hq' : q <+: n := by
        rcases List.prefix_or_prefix_of_prefix hq (List.prefix_append n k) with h | h
        · exact h
        · exact (hqn h).elim
      have := (hn q p hq' (by rintro rfl; exact hqn List.prefix_rfl) hqp ha).length_le
      omega
  · rintro ⟨q, p, hq, hqp, hl, hb, ha, hlone⟩
    refine ⟨n ++ q, n ++ p, (List.prefix_append_right_inj n).2 hq, (List.prefix_append_right_inj n).2 hqp, by simpa using hl, below_sub.1 hb, ?_, fun h => hlone (loneVal_sub.2 h)⟩
    intro r hr hnr
    obtain ⟨s, rfl⟩ := hnr
    rw [List.append_assoc] at hr ⊢
    rw [List.prefix_append_right_inj]
    exact ha (q ++ s) hr (List.prefix_append _ _)

/-- The entries of a canonical branch have no common first nibble. -/
theorem Canon.branch_split {cs : Fin 16 → LNode} {v : Bytes} (hc : Canon (.branch cs v)) {p : Key}
    (h : ∀ r, absL (.branch cs v) r ≠ none → p <+: r) : p = [] := by
  cases p with
  | nil => rfl
  | cons a p =>
    exfalso
    obtain ⟨h1, h2⟩ := hc
    rcases h2 with ⟨i, j, hij, hi, hj⟩ | ⟨hv, i, hi⟩
    · obtain ⟨r, hr⟩ := (h1 i).exists_key hi
      obtain ⟨s, hs⟩ := (h1 j).exists_key hj
      have e1 := (List.cons_prefix_cons.1 (h (i :: r) hr)).1
      have e2 := (List.cons_prefix_cons.1 (h (j :: s) hs)).1
      exact hij (e1.symm.trans e2)
    · have := h [] (by simp [hv])
      simp at this

/-- The common prefix of the entries of a canonical extension is that of its key. -/
theorem ext_common {n : Key} {c : LNode} (hc : c.Canon) (hb : c.isBH) {q p : Key} (hq : q <+: n)
    (h : ∀ r, absL (.ext n c) r ≠ none → q <+: r → p <+: r) : p <+: n := by
  have h' : ∀ r, absL c r ≠ none → p <+: n ++ r := fun r hr =>
    h (n ++ r) (by simpa using hr) (hq.trans (List.prefix_append _ _))
  cases c with
  | hash x => simpa using h' [] (by simp [absL_hash])
  | branch cs v =>
    obtain ⟨d, r, hr⟩ := hc.branch_below
    rcases List.prefix_or_prefix_of_prefix (h' _ hr) (List.prefix_append _ _) with hp | hp
    · exact hp
    · obtain ⟨p', rfl⟩ := hp
      have : p' = [] := hc.branch_split fun r hr => by
        simpa [List.prefix_append_right_inj] using h' r hr
      simp [this]
  | empty => exact hb.elim
  | ext _ _ => exact hb.elim
  | leaf _ _ => exact hb.elim

/-- Lookups with overflow checks. -/
theorem get_exact {P : Profile} (hP : P.overflowChecks = true) : ∀ (l : LNode) (k : Key), l.Canon →
    (StopsInside (absL l) k ∧ l.get P k = .error .overflow) ∨
    (¬ StopsInside (absL l) k ∧ ∃ r, l.get P k = .ok r ∧ ∀ v, r = some v ↔ Shown (absL l) k v) := by
  intro l
  induction l with
  | empty =>
    intro k _
    refine .inr ⟨?_, none, rfl, ?_⟩
    · rintro ⟨q, p, _, _, _, ⟨d, r, h⟩, _⟩; simp at h
    · intro v; simp [Shown]
  | hash h =>
    intro k _
    refine .inr ⟨?_, none, rfl, ?_⟩
    · rintro ⟨q, p, _, _, _, ⟨d, r, h⟩, _⟩; simp [absL_hash] at h
    · intro v
      simp only [Shown, absL_hash]
      simp
  | branch cs w ih =>
    intro k hc
    cases k with
    | nil =>
      refine .inr ⟨?_, _, rfl, ?_⟩
      · rintro ⟨q, p, hq, hqp, hl, hb, ha, hlone⟩
        rw [List.prefix_nil] at hq
        subst hq
        have := hc.branch_split fun r hr => ha r hr List.nil_prefix
        subst this
        simp at hl
      · intro v
        constructor
        · intro h
          refine .inl ?_
          split at h
          · cases h
          · cases h; simp [*]
        · rintro (h | ⟨q, h1, h2⟩ | ⟨q, hq, h1, h2⟩)
          · by_cases hw : w = []
            · simp [hw] at h
            · simpa [hw] using h
          · obtain ⟨r, hr1, hr2⟩ := hc.branch_two q
            exact absurd (h2 r hr2) hr1
          · rw [List.prefix_nil] at hq
            subst hq
            exact absurd hc.branch_below h2
    | cons d k =>
      have hnil : ∀ q : Key, q <+: [d] → q ≠ [d] → q = [] := by
        intro q hq hne
        cases q with
        | nil => rfl
        | cons a q =>
          rw [List.cons_prefix_cons, List.prefix_nil] at hq
          obtain ⟨rfl, rfl⟩ := hq
          simp at hne
      have h1 : Shown (absL (.branch cs w)) (d :: k) = Shown (absL (cs d)) k := by
        funext v
        have := shown_sub (m := absL (.branch cs w)) (n := [d]) (k := k) (v := v) ?_
        · rw [absL_branch_sub] at this; exact propext this
        · intro q hq hne x hx
          cases hnil q hq hne
          exact hc.branch_below
      have h2 : StopsInside (absL (.branch cs w)) (d :: k) ↔ StopsInside (absL (cs d)) k := by
        have := stops_sub (m := absL (.branch cs w)) (n := [d]) (k := k) ?_
        · rw [absL_branch_sub] at this; exact this
        · intro q p hq hne hqp ha
          cases hnil q hq hne
          rw [hc.branch_split fun r hr => ha r hr List.nil_prefix]
          exact List.nil_prefix
      simp only [LNode.get, h1, h2]
      exact ih d k (hc.1 d)
  | ext n c ih =>
    intro k hc
    obtain ⟨hn, hb, hcc⟩ := hc
    have hext : ∀ q, absL (.ext n c) q ≠ none → n <+: q := fun q hq => by
      obtain ⟨s, rfl, _⟩ := absL_ext_some hq
      exact List.prefix_append _ _
    by_cases hl : n.length ≤ k.length
    · by_cases hp : n <+: k
      · obtain ⟨k, rfl⟩ := hp
        have h1 : Shown (absL (.ext n c)) (n ++ k) = Shown (absL c) k := by
          funext v
          have := shown_sub (m := absL (.ext n c)) (n := n) (k := k) (v := v) ?_
          · rw [absL_ext_sub] at this; exact propext this
          · intro q hq hne x hx
            have := hext q (by simp [hx])
            exact absurd (hq.eq_of_length_le this.length_le) hne
        have h2 : StopsInside (absL (.ext n c)) (n ++ k) ↔ StopsInside (absL c) k := by
          have := stops_sub (m := absL (.ext n c)) (n := n) (k := k) ?_
          · rw [absL_ext_sub] at this; exact this
          · intro q p hq hne hqp ha
            exact (ext_common hcc hb hq ha).trans (List.prefix_append _ _)
        have h3 : (LNode.ext n c).get P (n ++ k) = c.get P k := by
          simp [LNode.get]
        rw [h1, h2, h3]
        exact ih k hcc
      · refine .inr ⟨?_, none, by simp [LNode.get, hl, hp], ?_⟩
        · rintro ⟨q, p, hq, hqp, hlt, ⟨d, r, hr⟩, ha, hlone⟩
          have h1 := hext _ hr
          rcases List.prefix_or_prefix_of_prefix h1 (List.prefix_append q (d :: r)) with h | h
          · exact hp (h.trans hq)
          · have := (ext_common hcc hb h ha).length_le
            omega
        · intro v
          simp only [reduceCtorEq, false_iff]
          rintro (h | ⟨q, h1, h2⟩ | ⟨q, hq, h1, h2⟩)
          · exact hp (hext _ (by simp [h]))
          · have h3 := hext _ (by rw [h1]; simp)
            exact hp (List.prefix_of_prefix_length_le h3 (List.prefix_append _ _) hl)
          · exact hp ((hext _ (by simp [h1])).trans hq)
    · refine .inl ⟨⟨[], n, List.nil_prefix, List.nil_prefix, by omega,
        below_ext hcc hb List.nil_prefix hn.symm, fun r hr _ => hext r hr,
        ext_not_lone hcc hb List.nil_prefix⟩, by simp [LNode.get, hl, hP]⟩
  | leaf n w =>
    intro k _
    refine .inr ⟨?_, _, rfl, ?_⟩
    · rintro ⟨q, p, hq, hqp, hlt, ⟨d, r, hr⟩, ha, hlone⟩
      have : n = q ++ d :: r := by
        by_contra h
        exact hr (by simp [absL_leaf, Ne.symm h])
      subst this
      exact hlone ⟨d :: r, w, by simp [absL_leaf], fun s hs => by simpa [absL_leaf] using hs⟩
    · intro v
      constructor
      · intro h
        split at h
        · rename_i hnk
          cases h
          rcases hnk with h | h
          · exact .inr (.inr ⟨n, h, by simp [absL_leaf], fun ⟨d, r, hr⟩ => by simp [absL_leaf] at hr⟩)
          · obtain ⟨s, rfl⟩ := h
            exact .inr (.inl ⟨s, by simp [absL_leaf], fun r hr => by simpa [absL_leaf] using hr⟩)
        · cases h
      · have key : ∀ q, absL (.leaf n w) q = some (.val v) → q = n ∧ w = v := by
          intro q h
          rw [absL_leaf] at h
          split at h
          · rename_i e; exact ⟨e, by simpa using h⟩
          · cases h
        rintro (h | ⟨q, h1, h2⟩ | ⟨q, hq, h1, h2⟩)
        · obtain ⟨rfl, rfl⟩ := key _ h; simp
        · obtain ⟨rfl, rfl⟩ := key _ h1; simp
        · obtain ⟨rfl, rfl⟩ := key _ h1; simp [hq]

/-! ### Without overflow checks -/

theorem nodeAt_sub {m : KMap} {n k : Key} (hk : k ≠ [] ∨ m.NodeAt n) :
    NodeAt m (n ++ k) ↔ NodeAt (m.sub n) k := by
  rcases List.eq_nil_or_concat k with rfl | ⟨k', d, rfl⟩
  · simp only [ne_eq, not_true_eq_false, false_or] at hk
    simpa using ⟨fun _ => .inl rfl, fun _ => hk⟩
  · rw [List.concat_eq_append]
    constructor
    · rintro (h | ⟨q', e, h, h'⟩)
      · simp at h
      · rw [← List.append_assoc] at h
        have := List.append_inj' h rfl
        obtain ⟨rfl, _⟩ := this
        exact .inr ⟨k', d, rfl, h'.imp id forks_sub.2⟩
    · rintro (h | ⟨q', e, h, h'⟩)
      · simp at h
      · have := List.append_inj' h rfl
        obtain ⟨rfl, _⟩ := this
        exact .inr ⟨n ++ k', d, by simp, h'.imp id forks_sub.1⟩

theorem zeroRun_sub {m : KMap} {n k : Key} {v : Bytes}
    (hn : ∀ q p, q <+: n → q ≠ n → (∀ r, m r ≠ none → q <+: r → p <+: r) → p <+: n ++ k)
    (h0 : m.NodeAt n ∨ ∀ j, 0 < j → ¬ (∀ r, m r ≠ none → n <+: r → n ++ List.replicate j 0 <+: r)) :
    ZeroRun m (n ++ k) v ↔ ZeroRun (m.sub n) k v := by
  have key : ∀ s j, k.length < s.length + j →
      (∀ r, m r ≠ none → n ++ s <+: r → n ++ s ++ List.replicate j 0 <+: r) →
      (NodeAt m (n ++ s) ↔ NodeAt (m.sub n) s) := by
    intro s j hl ha
    refine nodeAt_sub ?_
    rcases h0 with h | h
    · exact .inr h
    · left
      rintro rfl
      exact h j (by simp at hl; omega) (by simpa using ha)
  constructor
  · rintro ⟨q, j, hq, hl, hnode, ha, hm, hb⟩
    by_cases hqn : n <+: q
    · obtain ⟨s, rfl⟩ := hqn
      rw [List.prefix_append_right_inj] at hq
      have hl' : k.length < s.length + j := by simpa [Nat.add_assoc] using hl
      refine ⟨s, j, hq, hl', (key s j hl' ha).1 hnode, ?_, ?_, ?_⟩
      · intro r hr hsr
        have := ha (n ++ r) hr ((List.prefix_append_right_inj n).2 hsr)
        rw [List.append_assoc, List.prefix_append_right_inj] at this
        exact this
      · rw [List.append_assoc] at hm; exact hm
      · rw [List.append_assoc] at hb; exact below_sub.2 hb
    · exfalso
      have hq' : q <+: n := by
        rcases List.prefix_or_prefix_of_prefix hq (List.prefix_append n k) with h | h
        · exact h
        · exact (hqn h).elim
      have := (hn q _ hq' (by rintro rfl; exact hqn List.prefix_rfl) ha).length_le
      simp at this hl
      omega
  · rintro ⟨q, j, hq, hl, hnode, ha, hm, hb⟩
    have ha' : ∀ r, m r ≠ none → n ++ q <+: r → n ++ q ++ List.replicate j 0 <+: r := by
      intro r hr hnr
      obtain ⟨s, rfl⟩ := hnr
      rw [List.append_assoc, List.append_assoc, List.prefix_append_right_inj]
      rw [List.append_assoc] at hr
      exact ha (q ++ s) hr (List.prefix_append _ _)
    refine ⟨n ++ q, j, (List.prefix_append_right_inj n).2 hq, by simpa [Nat.add_assoc] using hl,
      (key q j hl ha').2 hnode, ha', ?_, ?_⟩
    · rw [List.append_assoc]; exact hm
    · rw [List.append_assoc]; exact below_sub.1 hb

/-- Lookups without overflow checks. -/
theorem get_exact_release {P : Profile} (hP : P.overflowChecks = false) : ∀ (l : LNode) (k : Key),
    l.Canon → ∃ r, l.get P k = .ok r ∧
      ∀ v, r = some v ↔ Shown (absL l) k v ∨ ZeroRun (absL l) k v := by
  intro l
  induction l with
  | empty =>
    intro k _
    refine ⟨none, rfl, fun v => ?_⟩
    simp only [reduceCtorEq, false_iff]
    rintro (h | ⟨q, j, _, _, _, _, h, _⟩)
    · simp [Shown] at h
    · simp at h
  | hash h =>
    intro k _
    refine ⟨none, rfl, fun v => ?_⟩
    simp only [reduceCtorEq, false_iff]
    rintro (h | ⟨q, j, _, _, _, _, _, ⟨d, r, h⟩⟩)
    · simp only [Shown, absL_hash] at h
      simp at h
    · simp [absL_hash] at h
  | branch cs w ih =>
    intro k hc
    have hsplit : ∀ j, 0 < j → ¬ (∀ r, absL (.branch cs w) r ≠ none → [] <+: r →
        [] ++ List.replicate j 0 <+: r) := by
      intro j hj ha
      have := hc.branch_split fun r hr => ha r hr List.nil_prefix
      have := congrArg List.length this
      simp at this; omega
    cases k with
    | nil =>
      refine ⟨_, rfl, ?_⟩
      intro v
      constructor
      · intro h
        refine .inl (.inl ?_)
        split at h
        · cases h
        · cases h; simp [*]
      · rintro ((h | ⟨q, h1, h2⟩ | ⟨q, hq, h1, h2⟩) | ⟨q, j, hq, hl, hnode, ha, hm, hb⟩)
        · by_cases hw : w = []
          · simp [hw] at h
          · simpa [hw] using h
        · obtain ⟨r, hr1, hr2⟩ := hc.branch_two q
          exact absurd (h2 r hr2) hr1
        · rw [List.prefix_nil] at hq
          subst hq
          exact absurd hc.branch_below h2
        · rw [List.prefix_nil] at hq
          subst hq
          exact absurd ha (hsplit j (by simp at hl; omega))
    | cons d k =>
      have hnil : ∀ q : Key, q <+: [d] → q ≠ [d] → q = [] := by
        intro q hq hne
        cases q with
        | nil => rfl
        | cons a q =>
          rw [List.cons_prefix_cons, List.prefix_nil] at hq
          obtain ⟨rfl, rfl⟩ := hq
          simp at hne
      have h1 : Shown (absL (.branch cs w)) (d :: k) = Shown (absL (cs d)) k := by
        funext v
        have := shown_sub (m := absL (.branch cs w)) (n := [d]) (k := k) (v := v) ?_
        · rw [absL_branch_sub] at this; exact propext this
        · intro q hq hne x hx
          cases hnil q hq hne
          exact hc.branch_below
      have h2 : ∀ v, ZeroRun (absL (.branch cs w)) (d :: k) v ↔ ZeroRun (absL (cs d)) k v := by
        intro v
        have := zeroRun_sub (m := absL (.branch cs w)) (n := [d]) (k := k) (v := v) ?_ ?_
        · rw [absL_branch_sub] at this; exact this
        · intro q p hq hne ha
          cases hnil q hq hne
          rw [hc.branch_split fun r hr => ha r hr List.nil_prefix]
          exact List.nil_prefix
        · refine .inl (.inr ⟨[], d, rfl, ?_⟩)
          rcases hc.2 with ⟨i, j, hij, hi, hj⟩ | ⟨hv, _⟩
          · obtain ⟨r, hr⟩ := (hc.1 i).exists_key hi
            obtain ⟨s, hs⟩ := (hc.1 j).exists_key hj
            exact .inr ⟨i, j, r, s, hij, hr, hs⟩
          · left; simp [hv]
      simp only [LNode.get, h1, h2]
      exact ih d k (hc.1 d)
  | ext n c ih =>
    intro k hc
    obtain ⟨hn, hb, hcc⟩ := hc
    have hext : ∀ q, absL (.ext n c) q ≠ none → n <+: q := fun q hq => by
      obtain ⟨s, rfl, _⟩ := absL_ext_some hq
      exact List.prefix_append _ _
    by_cases hl : n.length ≤ k.length
    · by_cases hp : n <+: k
      · obtain ⟨k, rfl⟩ := hp
        have h1 : Shown (absL (.ext n c)) (n ++ k) = Shown (absL c) k := by
          funext v
          have := shown_sub (m := absL (.ext n c)) (n := n) (k := k) (v := v) ?_
          · rw [absL_ext_sub] at this; exact propext this
          · intro q hq hne x hx
            have := hext q (by simp [hx])
            exact absurd (hq.eq_of_length_le this.length_le) hne
        have h2 : ∀ v, ZeroRun (absL (.ext n c)) (n ++ k) v ↔ ZeroRun (absL c) k v := by
          intro v
          have := zeroRun_sub (m := absL (.ext n c)) (n := n) (k := k) (v := v) ?_ ?_
          · rw [absL_ext_sub] at this; exact this
          · intro q p hq hne ha
            exact (ext_common hcc hb hq ha).trans (List.prefix_append _ _)
          · right
            intro j hj ha
            have := (ext_common hcc hb List.prefix_rfl ha).length_le
            simp at this; omega
        have h3 : (LNode.ext n c).get P (n ++ k) = c.get P k := by
          simp [LNode.get]
        simp only [h1, h2, h3]
        exact ih k hcc
      · refine ⟨none, by simp [LNode.get, hl, hp], fun v => ?_⟩
        simp only [reduceCtorEq, false_iff]
        rintro ((h | ⟨q, h1, h2⟩ | ⟨q, hq, h1, h2⟩) | ⟨q, j, hq, hlt, hnode, ha, hm, hbl⟩)
        · exact hp (hext _ (by simp [h]))
        · have h3 := hext _ (by rw [h1]; simp)
          exact hp (List.prefix_of_prefix_length_le h3 (List.prefix_append _ _) hl)
        · exact hp ((hext _ (by simp [h1])).trans hq)
        · have h1 := hext _ (by rw [hm]; simp)
          rcases List.prefix_or_prefix_of_prefix h1 (List.prefix_append q _) with h | h
          · exact hp (h.trans hq)
          · have := (ext_common hcc hb h ha).length_le
            simp at this
            omega
    · have hshown : ∀ v, ¬ Shown (absL (.ext n c)) k v := by
        rintro v (h | ⟨q, h1, h2⟩ | ⟨q, hq, h1, h2⟩)
        · exact hl (hext _ (by simp [h])).length_le
        · have h3 := hext _ (by rw [h1]; simp)
          have hkn : k <+: n := List.prefix_of_prefix_length_le (List.prefix_append k q) h3 (by omega)
          exact ext_not_lone hcc hb hkn ⟨q, v, h1, h2⟩
        · have := (hext q (by simp [h1])).length_le
          have := hq.length_le
          omega
      have hq0 : ∀ q, q <+: k → (absL (.ext n c)).NodeAt q → q = [] := by
        rintro q hq (h | ⟨q', d, rfl, h⟩)
        · exact h
        · exfalso
          have hlq := hq.length_le
          simp only [List.length_append, List.length_cons, List.length_nil] at hlq
          rcases h with h | ⟨a, b, r, s, hab, h1, h2⟩
          · have := (hext _ h).length_le
            omega
          · have e1 := hext _ h1
            have e2 := hext _ h2
            have hq'n : q' <+: n :=
              List.prefix_of_prefix_length_le (List.prefix_append _ _) e1 (by omega)
            refine not_forks_ext (c := c) hq'n (by rintro rfl; omega) ⟨a, b, r, s, hab, h1, h2⟩
      have hrun : ∀ v, ZeroRun (absL (.ext n c)) k v →
          n = List.replicate n.length 0 ∧ absL c [] = some (.val v) := by
        rintro v ⟨q, j, hq, hlt, hnode, ha, hm, hbl⟩
        cases hq0 q hq hnode
        have h1 := ext_common hcc hb List.nil_prefix ha
        have h2 := hext _ (by rw [hm]; simp)
        have h3 := h1.eq_of_length_le h2.length_le
        simp only [List.nil_append] at h3 hm
        have hj : j = n.length := by rw [← h3]; simp
        subst hj
        refine ⟨h3.symm, ?_⟩
        rw [h3] at hm
        have := absL_ext_append n c []
        rw [List.append_nil] at this
        rw [← this]; exact hm
      by_cases h0 : n = List.replicate n.length 0
      · have hget : (LNode.ext n c).get P k = c.get P [] := by
          simp only [LNode.get, if_neg hl, hP, Bool.false_eq_true, if_false, if_pos h0]
        cases c with
        | hash x =>
          refine ⟨none, hget, fun v => ?_⟩
          simp only [reduceCtorEq, false_iff]
          rintro (h | h)
          · exact hshown v h
          · have := (hrun v h).2
            simp [absL_hash] at this
        | branch cs w =>
          refine ⟨_, hget, fun v => ⟨fun h => .inr ?_, fun h => ?_⟩⟩
          · have hw : w ≠ [] ∧ w = v := by
              split at h
              · cases h
              · cases h; exact ⟨by assumption, rfl⟩
            obtain ⟨hw, rfl⟩ := hw
            refine ⟨[], n.length, List.nil_prefix, by simp; omega, .inl rfl, ?_, ?_, ?_⟩
            · intro r hr _
              rw [List.nil_append, ← h0]
              exact hext r hr
            · rw [List.nil_append, ← h0]
              have := absL_ext_append n (.branch cs w) []
              rw [List.append_nil] at this
              rw [this]; simp [hw]
            · rw [List.nil_append, ← h0]
              obtain ⟨d, r, hr⟩ := hcc.branch_below
              exact ⟨d, r, by rw [absL_ext_append]; exact hr⟩
          · rcases h with h | h
            · exact absurd h (hshown v)
            · have := (hrun v h).2
              by_cases hw : w = []
              · simp [hw] at this
              · simpa [hw] using this
        | empty => exact hb.elim
        | ext _ _ => exact hb.elim
        | leaf _ _ => exact hb.elim
      · refine ⟨none, ?_, fun v => ?_⟩
        · simp only [LNode.get, if_neg hl, hP, Bool.false_eq_true, if_false, if_neg h0]
        · simp only [reduceCtorEq, false_iff]
          rintro (h | h)
          · exact hshown v h
          · exact h0 (hrun v h).1
  | leaf n w =>
    intro k hc
    have hstop : ¬ StopsInside (absL (.leaf n w)) k := by
      rintro ⟨q, p, hq, hqp, hlt, ⟨d, r, hr⟩, ha, hlone⟩
      have : n = q ++ d :: r := by
        by_contra h
        exact hr (by simp [absL_leaf, Ne.symm h])
      subst this
      exact hlone ⟨d :: r, w, by simp [absL_leaf], fun s hs => by simpa [absL_leaf] using hs⟩
    rcases get_exact (P := .debug) rfl (.leaf n w) k hc with ⟨h, _⟩ | ⟨_, r, h1, h2⟩
    · exact absurd h hstop
    · refine ⟨r, h1, fun v => ?_⟩
      rw [h2]
      refine ⟨.inl, ?_⟩
      rintro (h | ⟨q, j, _, _, _, _, hm, ⟨d, r, hr⟩⟩)
      · exact h
      · exfalso
        have e1 : q ++ List.replicate j 0 = n := by
          by_contra h
          simp [absL_leaf, h] at hm
        rw [e1] at hr
        simp [absL_leaf] at hr

end LNode
end EthTrie
