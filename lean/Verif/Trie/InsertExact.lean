import Verif.Trie.Abs
import Verif.Spec.Exact

/-!
# The exact outcome of insertions
-/

namespace EthTrie

open Spec

namespace KMap

variable {m : KMap} {n k t : Key} {v : ValOrHash}

theorem endsInside_sub : EndsInside (m.sub n) k ↔ EndsInside m (n ++ k) := by
  unfold EndsInside
  rw [below_sub, forks_sub, loneVal_sub]; rfl

theorem branchAt_sub : BranchAt (m.sub n) k ↔ BranchAt m (n ++ k) := by
  unfold BranchAt
  rw [below_sub, loneVal_sub]; rfl

theorem Lands.of_sub (h : Lands (m.sub n) k t) : Lands m (n ++ k) (n ++ t) := by
  rcases h with ⟨h1, rfl⟩ | ⟨h1, h2, h3, h4⟩
  · exact .inl ⟨fun h => h1 (endsInside_sub.2 h), rfl⟩
  · refine .inr ⟨endsInside_sub.1 h1, (List.prefix_append_right_inj n).2 h2, ?_, ?_⟩
    · rintro r hr ⟨s, rfl⟩
      rw [List.append_assoc] at hr ⊢
      rw [List.prefix_append_right_inj]
      exact h3 (k ++ s) hr (List.prefix_append _ _)
    · rw [forks_sub] at h4; exact h4

theorem Lands.unique {t' : Key} (h : Lands m k t) (h' : Lands m k t') : t = t' := by
  have aux : ∀ {t t' : Key}, m k = none → m.Below k → ¬ m.Forks k →
      (∀ r, m r ≠ none → k <+: r → t <+: r) → k <+: t' → (m t' ≠ none ∨ m.Forks t') → t <+: t' := by
    rintro t _ _ _ _ h3 ⟨s, rfl⟩ h4
    rcases h4 with h4 | ⟨d, e, r, r', hde, hd, he⟩
    · exact h3 _ h4 (List.prefix_append _ _)
    · have a := h3 _ hd (by simp)
      have b := h3 _ he (by simp)
      rcases List.prefix_or_prefix_of_prefix a (List.prefix_append (k ++ s) (d :: r)) with h | ⟨u, rfl⟩
      · exact h
      · cases u with
        | nil => simp
        | cons x u =>
          rw [List.prefix_append_right_inj, List.cons_prefix_cons] at a b
          exact absurd (a.1.symm.trans b.1) hde
  rcases h with ⟨h1, rfl⟩ | ⟨h1, h2, h3, h4⟩ <;> rcases h' with ⟨g1, rfl⟩ | ⟨g1, g2, g3, g4⟩
  · rfl
  · exact absurd g1 h1
  · exact absurd h1 g1
  · have a := aux h1.1 h1.2.1 h1.2.2.1 h3 g2 g4
    have b := aux h1.1 h1.2.1 h1.2.2.1 g3 h2 h4
    exact a.eq_of_length_le b.length_le

theorem hashOn_sub (hn : ∀ q h, m q = some (.hash h) → q <+: n → q = n) :
    HashOn m (n ++ t) ↔ HashOn (m.sub n) t := by
  constructor
  · rintro ⟨q, h, hq, hp⟩
    rcases List.prefix_or_prefix_of_prefix hp (List.prefix_append n t) with h1 | ⟨s, rfl⟩
    · have := hn q h hq h1
      subst this
      exact ⟨[], h, by simpa [sub] using hq, List.nil_prefix⟩
    · exact ⟨s, h, hq, (List.prefix_append_right_inj n).1 hp⟩
  · rintro ⟨q, h, hq, hp⟩
    exact ⟨n ++ q, h, hq, (List.prefix_append_right_inj n).2 hp⟩

theorem stored_sub (q : Key) : m.stored (n ++ t) v (n ++ q) = (m.sub n).stored t v q := by
  unfold stored
  by_cases h1 : q = t
  · rw [if_pos h1, if_pos (by rw [h1])]
    by_cases h2 : v = .val [] ∧ (m.sub n).Below t
    · rw [if_pos h2, if_pos (by rwa [below_sub] at h2)]
    · rw [if_neg h2, if_neg (by rwa [below_sub] at h2)]
  · rw [if_neg h1, if_neg (by simpa using h1)]
    by_cases h2 : (m.sub n) q = some (.val []) ∧ q <+: t
    · rw [if_pos h2, if_pos ⟨h2.1, (List.prefix_append_right_inj n).2 h2.2⟩]
    · rw [if_neg h2, if_neg fun h => h2 ⟨h.1, (List.prefix_append_right_inj n).1 h.2⟩]
      rfl

theorem stored_other {q : Key} (hn : ∀ q, m q = some (.val []) → q <+: n → q = n) (hq : ¬ n <+: q) :
    m.stored (n ++ t) v q = m q := by
  unfold stored
  rw [if_neg (by rintro rfl; exact hq (List.prefix_append _ _))]
  rw [if_neg]
  rintro ⟨h1, h2⟩
  rcases List.prefix_or_prefix_of_prefix h2 (List.prefix_append n t) with h3 | h3
  · exact hq (hn q h1 h3 ▸ List.prefix_rfl)
  · exact hq h3

theorem insertExact_ok {m1 : KMap} (h : insertExact m t v = .ok m1) : m1 = m.stored t v := by
  unfold insertExact at h
  split at h
  · cases h
  · cases v with
    | val x => cases h; rfl
    | hash y =>
      simp only at h
      split at h
      · cases h
      · split at h
        · cases h
        · cases h; rfl

theorem insertExact_sub (hn : ∀ q h, m q = some (.hash h) → q <+: n → q = n) :
    insertExact m (n ++ t) v = (insertExact (m.sub n) t v).map fun _ => m.stored (n ++ t) v := by
  unfold insertExact
  rw [hashOn_sub hn]
  split
  · rfl
  · cases v with
    | val x => rfl
    | hash h =>
      by_cases h1 : (m.sub n) t ≠ none ∨ (m.sub n).BranchAt t
      · have h1' := h1
        rw [branchAt_sub, show (m.sub n) t = m (n ++ t) from rfl] at h1'
        simp only [if_pos h1]
        rw [if_pos h1']; rfl
      · have h1' := h1
        rw [branchAt_sub, show (m.sub n) t = m (n ++ t) from rfl] at h1'
        simp only [if_neg h1]
        rw [if_neg h1']
        by_cases h2 : (m.sub n).Below t
        · rw [if_pos h2, if_pos (below_sub.1 h2)]; rfl
        · rw [if_neg h2, if_neg fun h => h2 (below_sub.2 h)]; rfl

theorem InsertOK.exact (h : InsertOK m k v) : Lands m k k ∧ insertExact m k v = .ok (m.put k v) := by
  have hE : ¬ m.EndsInside k := by
    rintro ⟨h1, h2, h3, h4⟩
    cases v with
    | val x =>
      rcases h.val x rfl with h | h | h | h
      · exact h h1
      · exact h h2
      · exact h3 h
      · exact h4 h
    | hash y => exact (h.hash y rfl).2 h2
  refine ⟨.inl ⟨hE, rfl⟩, ?_⟩
  have hH : ¬ m.HashOn k := by rintro ⟨q, x, h1, h2⟩; exact h.noHash q x h1 h2
  have hS : m.stored k v = m.put k v := by
    funext q
    unfold stored put
    by_cases hq : q = k
    · rw [if_pos hq, if_pos hq, if_neg]
      rintro ⟨h1, h2⟩
      exact h.nonempty h2 h1
    · rw [if_neg hq, if_neg hq, if_neg]
      rintro ⟨h1, h2⟩
      exact hq (h.noEmpty q h1 h2)
  unfold insertExact
  rw [if_neg hH]
  cases v with
  | val x => simp only [hS]
  | hash y =>
    obtain ⟨h1, h2⟩ := h.hash y rfl
    simp only [hS]
    rw [if_neg (by rintro (h3 | h3); exacts [h3 h1, h2 h3.1]), if_neg h2]

end KMap

namespace LNode

open KMap

theorem Canon.bh_not_inside {c : LNode} (hc : c.Canon) (hb : c.isBH) : ¬ EndsInside (absL c) [] := by
  rintro ⟨h1, h2, h3, h4⟩
  cases c with
  | hash h => simp [absL_hash] at h1
  | empty => exact hb
  | ext => exact hb
  | leaf => exact hb
  | branch cs v =>
    rcases hc.2 with ⟨i, j, hij, hi, hj⟩ | ⟨hv, _⟩
    · obtain ⟨q, hq⟩ := (hc.1 i).exists_key hi
      obtain ⟨r, hr⟩ := (hc.1 j).exists_key hj
      exact h3 ⟨i, j, q, r, hij, hq, hr⟩
    · simp [hv] at h1

theorem Canon.bh_fork {c : LNode} (hc : c.Canon) (hb : c.isBH) : absL c [] ≠ none ∨ Forks (absL c) [] := by
  cases c with
  | hash h => left; simp [absL_hash]
  | empty => exact hb.elim
  | ext => exact hb.elim
  | leaf => exact hb.elim
  | branch cs v =>
    rcases hc.2 with ⟨i, j, hij, hi, hj⟩ | ⟨hv, _⟩
    · obtain ⟨q, hq⟩ := (hc.1 i).exists_key hi
      obtain ⟨r, hr⟩ := (hc.1 j).exists_key hj
      exact .inr ⟨i, j, q, r, hij, hq, hr⟩
    · left; simp [hv]

/-- Keys that end inside an extension land at its end. -/
theorem lands_ext {n : Key} {c : LNode} {k : Key} (hc : c.Canon) (hb : c.isBH) (hk : k <+: n)
    (hne : k ≠ n) : Lands (absL (.ext n c)) k n := by
  refine .inr ⟨⟨absL_ext_none fun h => hne (hk.eq_of_length_le h.length_le), below_ext hc hb hk hne,
    not_forks_ext hk hne, ext_not_lone hc hb hk⟩, hk, ?_, ?_⟩
  · intro r hr _
    obtain ⟨s, rfl, _⟩ := absL_ext_some hr
    exact List.prefix_append _ _
  · rcases hc.bh_fork hb with h | ⟨d, e, r, s, hde, h1, h2⟩
    · left
      rw [← absL_ext_sub n c] at h
      simpa [KMap.sub] using h
    · right
      refine ⟨d, e, r, s, hde, ?_, ?_⟩
      · rw [absL_ext_append]; exact h1
      · rw [absL_ext_append]; exact h2

theorem ext_prefix {n : Key} {c : LNode} {q : Key} (h : absL (.ext n c) q ≠ none) (hp : q <+: n) : q = n := by
  obtain ⟨s, rfl, _⟩ := absL_ext_some h
  exact (hp.eq_of_length_le (by simp))

theorem absL_ext_stored {n : Key} {c c' : LNode} {t : Key} {v : ValOrHash}
    (h : absL c' = (absL c).stored t v) : absL (.ext n c') = (absL (.ext n c)).stored (n ++ t) v := by
  funext q
  by_cases hq : n <+: q
  · obtain ⟨q, rfl⟩ := hq
    rw [stored_sub, absL_ext_sub, absL_ext_append, h]
  · rw [stored_other (fun q hq hp => ext_prefix (by rw [hq]; simp) hp) hq, absL_ext_none hq,
      absL_ext_none hq]

theorem absL_branch_stored {cs : Fin 16 → LNode} {w : Bytes} {c' : LNode} {d : Fin 16} {t : Key}
    {v : ValOrHash} (h : absL c' = (absL (cs d)).stored t v) :
    absL (.branch (EthTrie.upd cs d c') w) = (absL (.branch cs w)).stored (d :: t) v := by
  have hn : ∀ q, absL (.branch cs w) q = some (.val []) → q <+: [d] → q = [d] := by
    intro q hq hp
    cases q with
    | nil =>
      rw [absL_branch_nil] at hq
      split at hq
      · cases hq
      · rename_i hw; cases hq; exact absurd rfl hw
    | cons e q => exact hp.eq_of_length_le (by simp)
  funext q
  by_cases hq : [d] <+: q
  · obtain ⟨q, rfl⟩ := hq
    have := stored_sub (m := absL (.branch cs w)) (n := [d]) (t := t) (v := v) q
    rw [show d :: t = [d] ++ t from rfl, this, absL_branch_sub, ← h]
    simp
  · rw [show d :: t = [d] ++ t from rfl, stored_other hn hq]
    cases q with
    | nil => simp
    | cons e q =>
      have : e ≠ d := by rintro rfl; exact hq (by simp)
      simp [upd_other _ _ this]

theorem insert_exact (v : ValOrHash) : ∀ (l : LNode) (k : Key), l.Canon → ∃ t, Lands (absL l) k t ∧
    (l.insert k v).map absL = insertExact (absL l) t v := by
  have hok : ∀ (l : LNode) (k : Key), l.Canon → InsertOK (absL l) k v → ∃ t, Lands (absL l) k t ∧
      (l.insert k v).map absL = insertExact (absL l) t v := by
    intro l k hc h
    obtain ⟨l', h1, _, _, h2, _⟩ := insert_abs v l k hc h
    exact ⟨k, h.exact.1, by rw [h.exact.2, h1, ← h2]; rfl⟩
  intro l
  induction l with
  | empty =>
    intro k hc
    exact hok _ _ hc ⟨by simp [NoHashOn], by simp, by simp [Below], fun _ _ => .inr (.inl (by simp [Below])),
      by simp [Below]⟩
  | hash h =>
    intro k hc
    have h1 : HashOn (absL (.hash h)) k := ⟨[], h, by simp [absL_hash], List.nil_prefix⟩
    refine ⟨k, .inl ⟨?_, rfl⟩, ?_⟩
    · rintro ⟨_, ⟨d, r, h2⟩, _⟩
      simp [absL_hash] at h2
    · unfold insertExact; rw [if_pos h1]; rfl
  | branch cs w ih =>
    intro k hc
    cases k with
    | nil =>
      have hH : ¬ HashOn (absL (.branch cs w)) [] := by
        rintro ⟨q, h, h1, h2⟩
        rw [List.prefix_nil] at h2; subst h2
        rw [absL_branch_nil] at h1
        split at h1 <;> simp at h1
      refine ⟨[], .inl ⟨hc.bh_not_inside trivial, rfl⟩, ?_⟩
      unfold insertExact; rw [if_neg hH]
      cases v with
      | val x =>
        simp only [insert]
        show Except.ok _ = Except.ok _
        congr 1
        funext q
        cases q with
        | nil => simp [stored, hc.branch_below]
        | cons d q => simp [stored]
      | hash h =>
        simp only [insert]
        rw [if_pos (.inr ⟨hc.branch_below, .inr (hc.bh_not_lone trivial [] fun _ _ => List.nil_prefix)⟩)]
        rfl
    | cons d k =>
      obtain ⟨t, h1, h2⟩ := ih d k (hc.1 d)
      rw [← absL_branch_sub cs w d] at h1
      refine ⟨d :: t, h1.of_sub, ?_⟩
      have hn : ∀ q h, absL (.branch cs w) q = some (.hash h) → q <+: [d] → q = [d] := by
        intro q h hq hp
        cases q with
        | nil => rw [absL_branch_nil] at hq; split at hq <;> simp at hq
        | cons e q => exact hp.eq_of_length_le (by simp)
      have hx := insertExact_sub (t := t) (v := v) hn
      rw [absL_branch_sub, ← h2] at hx
      rw [show d :: t = [d] ++ t from rfl, hx]
      simp only [insert]
      cases hi : (cs d).insert k v with
      | error e => rfl
      | ok c =>
        rw [hi] at h2
        have := absL_branch_stored (w := w) (insertExact_ok h2.symm)
        show Except.ok _ = Except.ok _
        rw [this]; rfl
  | ext n c ih =>
    intro k hc
    have hc' := hc
    obtain ⟨hn, hb, hcc⟩ := hc
    have hsub : ∀ t, Except.map absL (insert c (k.drop n.length) v) = insertExact (absL c) t v →
        (do let c' ← insert c (k.drop n.length) v; return LNode.ext n c' : R LNode).map absL =
          insertExact (absL (.ext n c)) (n ++ t) v := by
      intro t h2
      have hx := insertExact_sub (m := absL (.ext n c)) (n := n) (t := t) (v := v)
        (fun q h hq hp => ext_prefix (by rw [hq]; simp) hp)
      rw [absL_ext_sub, ← h2] at hx
      rw [hx]
      cases hi : insert c (k.drop n.length) v with
      | error e => rfl
      | ok c' =>
        rw [hi] at h2
        show Except.ok _ = Except.ok _
        rw [absL_ext_stored (insertExact_ok h2.symm)]
    by_cases hp : n <+: k
    · obtain ⟨k, rfl⟩ := hp
      obtain ⟨t, h1, h2⟩ := ih k hcc
      rw [← absL_ext_sub n c] at h1
      refine ⟨n ++ t, h1.of_sub, ?_⟩
      simp only [insert]
      rw [if_pos (.inl (List.prefix_append _ _))]
      exact hsub t (by rw [List.drop_left]; exact h2)
    · by_cases hp' : k <+: n
      · have hne : k ≠ n := by rintro rfl; exact hp List.prefix_rfl
        obtain ⟨t, h1, h2⟩ := ih [] hcc
        have ht : t = [] := by
          rcases h1 with ⟨_, h1⟩ | ⟨h1, _⟩
          · exact h1
          · exact absurd h1 (hcc.bh_not_inside hb)
        subst ht
        refine ⟨n, lands_ext hcc hb hp' hne, ?_⟩
        simp only [insert]
        rw [if_pos (.inr hp')]
        have := hsub [] (by rw [List.drop_eq_nil_of_le hp'.length_le]; exact h2)
        rw [List.append_nil] at this
        exact this
      · have hnone : ∀ q, absL (.ext n c) q ≠ none → ¬ q <+: k ∧ ¬ k <+: q := by
          intro q hq
          obtain ⟨s, rfl, _⟩ := absL_ext_some hq
          refine ⟨fun h => hp ((List.prefix_append _ _).trans h), fun h => ?_⟩
          rcases List.prefix_or_prefix_of_prefix h (List.prefix_append n s) with h | h
          · exact hp' h
          · exact hp h
        have hB : ¬ Below (absL (.ext n c)) k := by
          rintro ⟨d, r, h⟩
          exact (hnone _ h).2 (List.prefix_append _ _)
        refine hok _ _ hc' ⟨?_, ?_, fun h => absurd h hB, fun _ _ => .inr (.inl hB), fun h _ => ⟨?_, hB⟩⟩
        · intro q h hq; exact (hnone q (by rw [hq]; simp)).1
        · intro q hq hqk; exact absurd hqk (hnone q (by rw [hq]; simp)).1
        · by_contra h; exact (hnone k h).1 List.prefix_rfl
  | leaf n w =>
    intro k hc
    have hH : ∀ k, ¬ HashOn (absL (.leaf n w)) k := by
      rintro k ⟨q, h, h1, h2⟩
      rw [absL_leaf] at h1
      split at h1 <;> simp at h1
    by_cases hkn : n = k
    · subst hkn
      have hB : ¬ Below (absL (.leaf n w)) n := by
        rintro ⟨d, r, h⟩
        simp [absL_leaf] at h
      refine ⟨n, .inl ⟨fun h => by simpa [absL_leaf] using h.1, rfl⟩, ?_⟩
      unfold insertExact; rw [if_neg (hH n)]
      simp only [insert, if_true]
      cases v with
      | val x =>
        show Except.ok _ = Except.ok _
        congr 1
        funext q
        unfold stored
        by_cases hq : q = n
        · simp [hq, absL_leaf, hB]
        · rw [if_neg hq, absL_leaf, if_neg hq, absL_leaf, if_neg hq]; simp
      | hash h =>
        simp [absL_leaf]; rfl
    · by_cases h1 : n <+: k
      · -- a value at a proper prefix
        obtain ⟨s, rfl⟩ := h1
        cases s with
        | nil => simp at hkn
        | cons d kr =>
          have hB : ¬ Below (absL (.leaf n w)) (n ++ d :: kr) := by
            rintro ⟨d, r, h⟩
            simp [absL_leaf] at h
          refine ⟨n ++ d :: kr, .inl ⟨fun h => hB h.2.1, rfl⟩, ?_⟩
          have hcp : cpl n (n ++ d :: kr) = n.length := by
            obtain ⟨p, a, b, h1, h2, h3, h4⟩ := cpl_split n (n ++ d :: kr)
            have : p ++ b = p ++ (a ++ d :: kr) := by rw [← h2]; conv_lhs => rw [h1]
                                                      simp
            have := List.append_cancel_left this
            cases a with
            | nil => rw [h3, h1]; simp
            | cons x a => exact absurd rfl (h4 x a x _ rfl (by rw [this]; rfl))
          have hS : absL (mkExt n (.branch (EthTrie.upd empties d (mkNode kr v)) w)) =
              (absL (.leaf n w)).stored (n ++ d :: kr) v := by
            have : absL (.leaf n w) = absL (.ext n (.leaf [] w)) := by rw [absL_ext_leaf, List.append_nil]
            rw [absL_mkExt, this]
            apply absL_ext_stored
            funext q
            unfold stored
            have hB' : ¬ Below (absL (.leaf [] w)) (d :: kr) := by
              rintro ⟨d, r, h⟩
              simp [absL_leaf] at h
            cases q with
            | nil => simp only [absL_branch_nil, absL_leaf]; by_cases hw : w = [] <;> simp [hw]
            | cons e q =>
              by_cases he : e = d
              · subst he
                by_cases hq : q = kr
                · subst hq; simp [hB', KMap.put]
                · simp [hq, KMap.put, KMap.empty, absL_leaf]
              · simp [upd_other _ _ he, he, empties, absL_leaf]
          unfold insertExact; rw [if_neg (hH _)]
          simp only [insert]
          rw [if_neg hkn, hcp]
          simp only [List.drop_length, List.drop_left, List.take_length]
          cases v with
          | val x => show Except.ok _ = Except.ok _; rw [hS]
          | hash h =>
            simp only
            rw [if_neg (by rintro (h | h); exacts [by simp [absL_leaf] at h, hB h.1]), if_neg hB]
            show Except.ok _ = Except.ok _; rw [hS]
      · by_cases h2 : k <+: n
        · obtain ⟨s, rfl⟩ := h2
          cases s with
          | nil => simp at hkn
          | cons e nr =>
            have hB : Below (absL (.leaf (k ++ e :: nr) w)) k := ⟨e, nr, by simp [absL_leaf]⟩
            have hm : absL (.leaf (k ++ e :: nr) w) k = none := by simp [absL_leaf]
            have hL : LoneVal (absL (.leaf (k ++ e :: nr) w)) k :=
              ⟨e :: nr, w, by simp [absL_leaf], by simp [absL_leaf]⟩
            refine ⟨k, .inl ⟨fun h => h.2.2.2 hL, rfl⟩, ?_⟩
            have hcp : cpl (k ++ e :: nr) k = k.length := by
              obtain ⟨p, a, b, h1, h2, h3, h4⟩ := cpl_split (k ++ e :: nr) k
              have : p ++ a = p ++ (b ++ e :: nr) := by rw [← h1]; conv_lhs => rw [h2]
                                                        simp
              have := List.append_cancel_left this
              cases b with
              | nil => rw [h3]; conv_rhs => rw [h2]
                       simp
              | cons x b => exact absurd rfl (h4 x _ x b (by rw [this]; rfl) rfl)
            unfold insertExact; rw [if_neg (hH _)]
            simp only [insert]
            rw [if_neg hkn, hcp]
            simp only [List.drop_length, List.drop_left, List.take_left]
            cases v with
            | hash h =>
              simp only
              rw [if_neg (by rintro (h | h); exacts [h hm, h.2.elim (fun h => h hm) fun h => h hL]), if_pos hB]
              rfl
            | val x =>
              show Except.ok _ = Except.ok _
              congr 1
              have hs := absL_ext_stored (n := k) (c := .leaf (e :: nr) w) (t := []) (v := .val x)
                (c' := .branch (EthTrie.upd empties e (.leaf nr w)) x) (by
                  funext q
                  unfold stored
                  have hB' : Below (absL (.leaf (e :: nr) w)) [] := ⟨e, nr, by simp [absL_leaf]⟩
                  cases q with
                  | nil => simp [hB']
                  | cons d q =>
                    by_cases hd : d = e
                    · subst hd; simp [absL_leaf]
                    · simp [upd_other _ _ hd, hd, empties, absL_leaf])
              rw [absL_mkExt, hs, absL_ext_leaf, List.append_nil]
        · have hnone : ∀ q, absL (.leaf n w) q ≠ none → q = n := by
            intro q hq
            by_contra h
            exact hq (by rw [absL_leaf, if_neg h])
          have hB : ¬ Below (absL (.leaf n w)) k := by
            rintro ⟨d, r, h⟩
            exact h2 (hnone _ h ▸ List.prefix_append _ _)
          refine hok _ _ hc ⟨?_, ?_, fun h => absurd h hB, fun _ _ => .inr (.inl hB), fun h _ => ⟨?_, hB⟩⟩
          · intro q h hq hp; exact hH k ⟨q, h, hq, hp⟩
          · intro q hq hqk; rw [hnone q (by rw [hq]; simp)] at hqk; exact absurd hqk h1
          · by_contra h; exact hkn (hnone k h).symm

end LNode
end EthTrie
