import Verif.Trie.DeleteExact
import Verif.Trie.Iter

/-!
# Which insertions and deletions keep tries canonical
-/

namespace EthTrie

open Spec

namespace KMap

variable {m : KMap} {n k t : Key} {v : ValOrHash}

theorem insertClean_sub (hn : ∀ q, m q = some (.val []) → q <+: n → q = n) :
    InsertClean (m.sub n) t v ↔ InsertClean m (n ++ t) v := by
  unfold InsertClean
  rw [below_sub, forks_sub]
  refine and_congr ⟨fun h q hq hp => ?_, fun h q hq hp => ?_⟩ Iff.rfl
  · rcases List.prefix_or_prefix_of_prefix hp (List.prefix_append n t) with h1 | ⟨s, rfl⟩
    · have := hn q hq h1
      subst this
      rw [← h [] (by simpa [sub] using hq) List.nil_prefix]; simp
    · rw [h s hq ((List.prefix_append_right_inj n).1 hp)]
  · exact List.append_cancel_left (h (n ++ q) hq ((List.prefix_append_right_inj n).2 hp))

theorem deleteClean_sub : DeleteClean (m.sub n) t ↔ DeleteClean m (n ++ t) := by
  unfold DeleteClean
  rw [below_sub, forks_sub]; rfl

theorem InsertOK.clean (h : InsertOK m k v) : InsertClean m k v :=
  ⟨h.noEmpty, fun h1 h2 => absurd h1 (h.nonempty h2)⟩

end KMap

namespace LNode

open KMap

theorem canon_upd_iff {cs : Fin 16 → LNode} {c : LNode} {w : Bytes} {d : Fin 16}
    (hc : Canon (.branch cs w)) (hne : c ≠ .empty) :
    Canon (.branch (EthTrie.upd cs d c) w) ↔ c.Canon :=
  ⟨fun h => by simpa using h.1 d, fun h => hc.upd d h hne⟩

/-- After an insertion the trie is canonical exactly if the insertion is `InsertClean`. -/
theorem insert_clean (v : ValOrHash) : ∀ (l : LNode) (k t : Key) (l' : LNode), l.Canon →
    Lands (absL l) k t → l.insert k v = .ok l' →
    (l'.Canon ↔ InsertClean (absL l) t v) ∧ l' ≠ .empty ∧ (∀ cs w, l = .branch cs w → l'.isBH) := by
  have hok : ∀ (l : LNode) (k t : Key) (l' : LNode), l.Canon → InsertOK (absL l) k v →
      Lands (absL l) k t → l.insert k v = .ok l' →
      (l'.Canon ↔ InsertClean (absL l) t v) ∧ l' ≠ .empty ∧ (∀ cs w, l = .branch cs w → l'.isBH) := by
    intro l k t l' hc h ht hi
    obtain ⟨l1, h1, h2, h3, _, h4⟩ := insert_abs v l k hc h
    rw [hi] at h1
    cases h1
    have := ht.unique h.exact.1
    subst this
    exact ⟨⟨fun _ => h.clean, fun _ => h2⟩, h3, h4⟩
  intro l
  induction l with
  | empty =>
    intro k t l' hc
    exact hok _ _ _ _ hc ⟨by simp [NoHashOn], by simp, by simp [Below], fun _ _ => .inr (.inl (by simp [Below])),
      by simp [Below]⟩
  | hash h => intro k t l' hc _ hi; cases hi
  | branch cs w ih =>
    intro k t l' hc ht hi
    cases k with
    | nil =>
      have : t = [] := ht.unique (.inl ⟨hc.bh_not_inside trivial, rfl⟩)
      subst this
      cases v with
      | hash h => cases hi
      | val x =>
        cases hi
        refine ⟨⟨fun h => ⟨fun q _ hq => by simpa using hq, ?_⟩, fun h => ⟨hc.1, ?_⟩⟩, by simp,
          fun _ _ _ => trivial⟩
        · rintro h1 _
          rcases h.2 with ⟨i, j, hij, g1, g2⟩ | ⟨h2, _⟩
          · obtain ⟨q, hq⟩ := (hc.1 i).exists_key g1
            obtain ⟨r, hr⟩ := (hc.1 j).exists_key g2
            exact ⟨i, j, q, r, hij, hq, hr⟩
          · cases h1; exact absurd rfl h2
        · by_cases hx : x = []
          · obtain ⟨i, j, q, r, hij, h1, h2⟩ := h.2 (by rw [hx]) hc.branch_below
            exact .inl ⟨i, j, hij, by intro h; simp [h] at h1, by intro h; simp [h] at h2⟩
          · obtain ⟨i, q, h1⟩ := hc.branch_below
            exact .inr ⟨hx, i, by intro h; simp [h] at h1⟩
    | cons d k =>
      simp only [insert, R_bind_eq_ok] at hi
      obtain ⟨c, h1, h2⟩ := hi
      cases h2
      obtain ⟨t', h3, _⟩ := insert_exact v (cs d) k (hc.1 d)
      obtain ⟨h4, h5, _⟩ := ih d k t' c (hc.1 d) h3 h1
      rw [← absL_branch_sub cs w d] at h3 h4
      have := ht.unique h3.of_sub
      subst this
      refine ⟨?_, by simp, fun _ _ _ => trivial⟩
      rw [canon_upd_iff hc h5, h4]
      apply insertClean_sub
      intro q hq hp
      cases q with
      | nil =>
        rw [absL_branch_nil] at hq
        split at hq
        · cases hq
        · rename_i hw; cases hq; exact absurd rfl hw
      | cons e q => exact hp.eq_of_length_le (by simp)
  | ext n c ih =>
    intro k t l' hc ht hi
    have hc' := hc
    obtain ⟨hn, hb, hcc⟩ := hc
    have hsub : ∀ k' t' c', Lands (absL c) k' t' → insert c k' v = .ok c' → t = n ++ t' →
        (Canon (.ext n c') ↔ InsertClean (absL (.ext n c)) t v) := by
      rintro k' t' c' h1 h2 rfl
      obtain ⟨h3, _, h4⟩ := ih k' t' c' hcc h1 h2
      rw [← insertClean_sub (fun q hq hp => ext_prefix (by rw [hq]; simp) hp), absL_ext_sub, ← h3]
      have hb' : c'.isBH := by
        cases c with
        | branch cs w => exact h4 cs w rfl
        | hash h => cases h2
        | empty => exact hb.elim
        | ext => exact hb.elim
        | leaf => exact hb.elim
      exact ⟨fun h => h.2.2, fun h => ⟨hn, hb', h⟩⟩
    by_cases hp : n <+: k
    · obtain ⟨k, rfl⟩ := hp
      simp only [insert] at hi
      rw [if_pos (.inl (List.prefix_append _ _)), List.drop_left, R_bind_eq_ok] at hi
      obtain ⟨c', h1, h2⟩ := hi
      cases h2
      obtain ⟨t', h3, _⟩ := insert_exact v c k hcc
      refine ⟨hsub k t' c' h3 h1 ?_, by simp, by simp⟩
      rw [← absL_ext_sub n c] at h3
      exact ht.unique h3.of_sub
    · by_cases hp' : k <+: n
      · have hne : k ≠ n := by rintro rfl; exact hp List.prefix_rfl
        simp only [insert] at hi
        rw [if_pos (.inr hp'), List.drop_eq_nil_of_le hp'.length_le, R_bind_eq_ok] at hi
        obtain ⟨c', h1, h2⟩ := hi
        cases h2
        refine ⟨hsub [] [] c' (.inl ⟨hcc.bh_not_inside hb, rfl⟩) h1 ?_, by simp, by simp⟩
        rw [List.append_nil]
        exact ht.unique (lands_ext hcc hb hp' hne)
      · have hnone : ∀ q, absL (.ext n c) q ≠ none → ¬ q <+: k ∧ ¬ k <+: q := by
          intro q hq
          obtain ⟨s, rfl, _⟩ := absL_ext_some hq
          refine ⟨fun h => hp ((List.prefix_append _ _).trans h), fun h => ?_⟩
          rcases List.prefix_or_prefix_of_prefix h (List.prefix_append n s) with h | h
          · exact hp' h
          · exact hp h
        have hB : ¬ Below (absL (.ext n c)) k := by
          rintro ⟨d, r, h⟩
          exact (hnone _ h).2 (List.prefix_append _ _)
        refine hok _ _ _ _ hc' ⟨?_, ?_, fun h => absurd h hB, fun _ _ => .inr (.inl hB), fun h _ => ⟨?_, hB⟩⟩ ht hi
        · intro q h hq; exact (hnone q (by rw [hq]; simp)).1
        · intro q hq hqk; exact absurd hqk (hnone q (by rw [hq]; simp)).1
        · by_contra h; exact (hnone k h).1 List.prefix_rfl
  | leaf n w =>
    intro k t l' hc ht hi
    have hnone : ∀ q, absL (.leaf n w) q ≠ none → q = n := by
      intro q hq
      by_contra h
      exact hq (by rw [absL_leaf, if_neg h])
    have hL : ∀ k q, absL (.leaf n w) (k ++ q) ≠ none → LoneVal (absL (.leaf n w)) k := by
      intro k q h
      have := hnone _ h
      refine ⟨q, w, by rw [this, absL_leaf, if_pos rfl], fun r hr => ?_⟩
      have := (hnone _ hr).trans this.symm
      exact List.append_cancel_left this
    have : t = k := by
      refine ht.unique (.inl ⟨?_, rfl⟩)
      rintro ⟨_, ⟨d, r, h1⟩, _, h2⟩
      exact h2 (hL _ _ h1)
    subst this
    have hF : ¬ Forks (absL (.leaf n w)) t := by
      rintro ⟨d, e, r, s, hde, h1, h2⟩
      have := (hnone _ h1).trans (hnone _ h2).symm
      simp at this
      exact hde this.1
    simp only [insert] at hi
    by_cases hkn : n = t
    · subst hkn
      rw [if_pos rfl] at hi
      cases v with
      | hash h => cases hi
      | val x =>
        cases hi
        refine ⟨⟨fun _ => ⟨fun q hq _ => hnone q (by rw [hq]; simp), ?_⟩, fun _ => trivial⟩, by simp, by simp⟩
        rintro _ ⟨d, r, h⟩
        exact absurd (hnone _ h) (by simp)
    · rw [if_neg hkn] at hi
      obtain ⟨p, a', b', rfl, rfl, hcp, hne⟩ := cpl_split n t
      rw [hcp] at hi
      simp only [List.drop_left, List.take_left] at hi
      have hmk : ∀ {cs : Fin 16 → LNode} {x : Bytes}, Canon (mkExt p (.branch cs x)) ↔ Canon (.branch cs x) := by
        intro cs x
        cases p with
        | nil => rfl
        | cons d p => exact ⟨fun h => h.2.2, fun h => ⟨by simp, trivial, h⟩⟩
      cases a' with
      | nil =>
        cases b' with
        | nil => exact absurd rfl hkn
        | cons d kr =>
          cases hi
          refine ⟨?_, mkExt_ne_empty trivial, by simp⟩
          rw [hmk]
          constructor
          · intro h
            refine ⟨fun q hq hqk => ?_, ?_⟩
            · have hw : w = [] := by
                rw [absL_leaf] at hq
                split at hq
                · cases hq; rfl
                · cases hq
              subst hw
              rcases h.2 with ⟨i, j, hij, g1, g2⟩ | ⟨h, _⟩
              · have hu : ∀ i, EthTrie.upd empties d (mkNode kr v) i ≠ .empty → i = d := by
                  intro i hi
                  by_contra hid
                  rw [upd_other _ _ hid] at hi
                  exact hi rfl
                exact absurd ((hu i g1).trans (hu j g2).symm) hij
              · exact absurd rfl h
            · rintro _ ⟨e, r, h⟩
              exact absurd (hnone _ h) (by simp)
          · rintro ⟨h, _⟩
            refine canon_one (mkNode_canon kr v) (mkNode_ne_empty kr v) ?_
            rintro rfl
            have := h (p ++ []) (by simp [absL_leaf]) (by simp)
            simp at this
      | cons e nr =>
        cases b' with
        | nil =>
          cases v with
          | hash h => cases hi
          | val x =>
            cases hi
            refine ⟨?_, mkExt_ne_empty trivial, by simp⟩
            rw [hmk]
            constructor
            · intro h
              refine ⟨fun q hq hqk => ?_, fun hx _ => ?_⟩
              · have := hnone q (by rw [hq]; simp)
                subst this
                have := hqk.length_le
                simp at this
              · cases hx
                rcases h.2 with ⟨i, j, hij, g1, g2⟩ | ⟨h, _⟩
                · have hu : ∀ i, EthTrie.upd empties e (.leaf nr w) i ≠ .empty → i = e := by
                    intro i hi
                    by_contra hid
                    rw [upd_other _ _ hid] at hi
                    exact hi rfl
                  exact absurd ((hu i g1).trans (hu j g2).symm) hij
                · exact absurd rfl h
            · rintro ⟨_, h⟩
              refine canon_one (by trivial) (by simp) ?_
              rintro rfl
              exact hF (h rfl ⟨e, nr, by simp [absL_leaf]⟩)
        | cons d kr =>
          have hed := hne e nr d kr rfl rfl
          cases hi
          refine ⟨⟨fun _ => ⟨fun q hq hqk => ?_, ?_⟩, fun _ => mkExt_canon (canon_two hed (by trivial)
            (mkNode_canon kr v) (by simp) (mkNode_ne_empty kr v)) trivial⟩, mkExt_ne_empty trivial, by simp⟩
          · have := hnone q (by rw [hq]; simp)
            subst this
            simp at hqk
            exact absurd hqk.1 hed
          · rintro _ ⟨f, r, h⟩
            have := hnone _ h
            simp at this
            exact absurd this.1.symm hed

/-- Some branch has fewer than two occupied slots. -/
def Bad : LNode → Prop
  | .branch cs v => (∃ i, Bad (cs i)) ∨
      ¬ ((∃ i j, i ≠ j ∧ cs i ≠ .empty ∧ cs j ≠ .empty) ∨ (v ≠ [] ∧ ∃ i, cs i ≠ .empty))
  | .ext _ c => Bad c
  | _ => False

theorem Canon.not_bad : ∀ {l : LNode}, l.Canon → ¬ l.Bad := by
  intro l
  induction l with
  | empty => exact fun _ => id
  | hash h => exact fun _ => id
  | leaf n v => exact fun _ => id
  | ext n c ih => exact fun h => ih h.2.2
  | branch cs v ih =>
    rintro h (⟨i, hi⟩ | hb)
    · exact ih i (h.1 i) hi
    · exact hb h.2

theorem collapse_bad {n : Key} {c r : LNode} (h : collapse n c = .ok r) : r.Bad ↔ c.Bad := by
  cases c <;> cases h <;> exact Iff.rfl

theorem tryCollapse_bad {c r : LNode} (h : tryCollapse c = .ok r) : r.Bad ↔ c.Bad := by
  cases c with
  | ext n c => exact (collapse_bad h).trans Iff.rfl
  | empty => cases h; exact Iff.rfl
  | hash => cases h; exact Iff.rfl
  | branch => cases h; exact Iff.rfl
  | leaf => cases h; exact Iff.rfl

theorem deleteRec_clean : ∀ (l : LNode) (k t : Key) (l' : LNode) (x : Bytes), l.Canon →
    Lands (absL l) k t → l.deleteRec k = .ok (some (l', x)) →
    (DeleteClean (absL l) t → l'.PreCanon) ∧ (¬ DeleteClean (absL l) t → l'.Bad) := by
  intro l
  induction l with
  | empty => intro k t l' x _ _ h; cases h
  | hash h => intro k t l' x _ _ h; cases h
  | leaf n w =>
    intro k t l' x _ ht h
    simp only [deleteRec] at h
    split at h
    · rename_i hk
      subst hk
      cases h
      have : t = n := ht.unique (.inl ⟨fun h => by simpa [absL_leaf] using h.1, rfl⟩)
      subst this
      refine ⟨fun _ => .inl trivial, fun h => absurd ?_ h⟩
      rintro _ ⟨d, r, h⟩
      simp [absL_leaf] at h
    · cases h
  | ext n c ih =>
    intro k t l' x hc ht h
    obtain ⟨hn, hb, hcc⟩ := hc
    have hsub : ∀ k' t' c', Lands (absL c) k' t' → deleteRec c k' = .ok (some (c', x)) → t = n ++ t' →
        collapse n c' = .ok l' → (DeleteClean (absL (.ext n c)) t → l'.PreCanon) ∧
          (¬ DeleteClean (absL (.ext n c)) t → l'.Bad) := by
      rintro k' t' c' h1 h2 rfl h3
      obtain ⟨h4, h5⟩ := ih k' t' c' x hcc h1 h2
      rw [← deleteClean_sub, absL_ext_sub, collapse_bad h3]
      refine ⟨fun h => ?_, h5⟩
      obtain ⟨r, g1, g2, _⟩ := collapse_pre hn (h4 h) (by rintro rfl; cases h3)
      rw [h3] at g1; cases g1
      exact g2
    simp only [deleteRec] at h
    by_cases hp : n <+: k
    · obtain ⟨k, rfl⟩ := hp
      rw [if_pos (.inl (List.prefix_append _ _)), List.drop_left, R_bind_eq_ok] at h
      obtain ⟨o, h1, h2⟩ := h
      cases o with
      | none => cases h2
      | some r =>
        obtain ⟨c', y⟩ := r
        simp only [R_bind_eq_ok] at h2
        obtain ⟨r, h3, h4⟩ := h2
        cases h4
        obtain ⟨t', h5, _⟩ := deleteRec_exact c k hcc
        refine hsub k t' c' h5 h1 ?_ h3
        rw [← absL_ext_sub n c] at h5
        exact ht.unique h5.of_sub
    · by_cases hp' : k <+: n
      · have hne : k ≠ n := by rintro rfl; exact hp List.prefix_rfl
        rw [if_pos (.inr hp'), List.drop_eq_nil_of_le hp'.length_le, R_bind_eq_ok] at h
        obtain ⟨o, h1, h2⟩ := h
        cases o with
        | none => cases h2
        | some r =>
          obtain ⟨c', y⟩ := r
          simp only [R_bind_eq_ok] at h2
          obtain ⟨r, h3, h4⟩ := h2
          cases h4
          refine hsub [] [] c' (.inl ⟨hcc.bh_not_inside hb, rfl⟩) h1 ?_ h3
          rw [List.append_nil]
          exact ht.unique (lands_ext hcc hb hp' hne)
      · rw [if_neg (by simp [hp, hp'])] at h
        cases h
  | branch cs w ih =>
    intro k t l' x hc ht h
    cases k with
    | nil =>
      have : t = [] := ht.unique (.inl ⟨hc.bh_not_inside trivial, rfl⟩)
      subst this
      cases h
      have key : (∃ i j, i ≠ j ∧ cs i ≠ .empty ∧ cs j ≠ .empty) ↔ Forks (absL (.branch cs w)) [] := by
        constructor
        · rintro ⟨i, j, hij, hi, hj⟩
          obtain ⟨q, hq⟩ := (hc.1 i).exists_key hi
          obtain ⟨r, hr⟩ := (hc.1 j).exists_key hj
          exact ⟨i, j, q, r, hij, hq, hr⟩
        · rintro ⟨i, j, q, r, hij, h1, h2⟩
          exact ⟨i, j, hij, by intro h; simp [h] at h1, by intro h; simp [h] at h2⟩
      constructor
      · intro h
        refine .inl ⟨hc.1, .inl ?_⟩
        rcases hc.2 with h1 | ⟨hw, _⟩
        · exact h1
        · exact key.2 (h (by simp [hw]) hc.branch_below)
      · intro h
        refine .inr ?_
        rintro (h1 | ⟨h1, _⟩)
        · exact h fun _ _ => key.1 h1
        · exact h1 rfl
    | cons d k =>
      simp only [deleteRec, R_bind_eq_ok] at h
      obtain ⟨o, h1, h2⟩ := h
      cases o with
      | none => cases h2
      | some r =>
        obtain ⟨c', y⟩ := r
        obtain ⟨t', h3, _, h4⟩ := deleteRec_exact (cs d) k (hc.1 d)
        obtain ⟨g1, g2⟩ := h4 _ h1 c' y rfl
        obtain ⟨h5, h6⟩ := ih d k t' c' y (hc.1 d) h3 h1
        have h3' := h3
        rw [← absL_branch_sub cs w d] at h3'
        have := ht.unique h3'.of_sub
        subst this
        have hcl := deleteClean_sub (m := absL (.branch cs w)) (n := [d]) (t := t')
        rw [absL_branch_sub] at hcl
        rw [← hcl]
        have hclean : c' = .empty → DeleteClean (absL (cs d)) t' := by
          rintro he _ ⟨e, r, h⟩
          exact absurd (g2.1 he _ h) (by simp)
        simp only at h2
        by_cases hcond : c'.isEmpty = true ∧ numNonEmpty cs ≤ 2
        · rw [if_pos hcond] at h2
          cases ho : other cs d with
          | none => rw [ho] at h2; cases h2
          | some i =>
            rw [ho] at h2
            cases h2
            have hi' := List.find?_some (by rw [other] at ho; exact ho)
            simp only [bne_iff_ne, ne_eq, Bool.and_eq_true, Bool.not_eq_true'] at hi'
            have hie : cs i ≠ .empty := by
              intro h; rw [h] at hi'; simp [isEmpty] at hi'
            exact ⟨fun _ => .inr ⟨[i], cs i, rfl, by simp, hc.1 i, hie⟩,
              fun h => absurd (hclean (isEmpty_iff.1 hcond.1)) h⟩
        · rw [if_neg hcond, R_bind_eq_ok] at h2
          obtain ⟨r, h7, h8⟩ := h2
          cases h8
          refine ⟨fun h => .inl ?_, fun h => .inl ⟨d, by rw [upd_same, tryCollapse_bad h7]; exact h6 h⟩⟩
          obtain ⟨r', r1, r2, _, r4⟩ := tryCollapse_pre (h5 h)
          rw [h7] at r1; cases r1
          by_cases hce : c' = .empty
          · have hnum : ¬ numNonEmpty cs ≤ 2 := fun h => hcond ⟨isEmpty_iff.mpr hce, h⟩
            obtain ⟨a, b, c, ha, hb, hc', hab, hac, hbc⟩ := numNonEmpty_three hnum
            refine ⟨fun i => ?_, .inl ?_⟩
            · by_cases hid : i = d
              · subst hid; simpa using r2
              · rw [upd_other _ _ hid]; exact hc.1 i
            · have key : ∀ i, i ≠ d → cs i ≠ .empty → EthTrie.upd cs d r i ≠ .empty := by
                intro i hid hi; rwa [upd_other _ _ hid]
              by_cases had : a = d
              · subst had
                exact ⟨b, c, hbc, key b hab.symm hb, key c hac.symm hc'⟩
              · by_cases hbd : b = d
                · subst hbd
                  exact ⟨a, c, hac, key a had ha, key c hbc.symm hc'⟩
                · exact ⟨a, b, hab, key a had ha, key b hbd hb⟩
          · exact hc.upd d r2 (r4 hce)

/-- After a deletion the trie is canonical exactly if the deletion is `DeleteClean`. -/
theorem delete_clean {l : LNode} {k t : Key} {l' : LNode} {o : Option Bytes} (hc : l.Canon)
    (ht : Lands (absL l) k t) (h : l.delete k = .ok (l', o)) :
    l'.Canon ↔ (o ≠ none → DeleteClean (absL l) t) := by
  unfold delete at h
  rw [R_bind_eq_ok] at h
  obtain ⟨r, h1, h2⟩ := h
  cases r with
  | none => cases h2; exact ⟨fun _ h => absurd rfl h, fun _ => hc⟩
  | some r =>
    obtain ⟨c, x⟩ := r
    simp only [R_bind_eq_ok] at h2
    obtain ⟨r, h3, h4⟩ := h2
    cases h4
    obtain ⟨h5, h6⟩ := deleteRec_clean l k t c x hc ht h1
    simp only [ne_eq, reduceCtorEq, not_false_eq_true, forall_const]
    constructor
    · intro h
      by_contra hn
      exact h.not_bad ((tryCollapse_bad h3).2 (h6 hn))
    · intro h
      obtain ⟨r', r1, r2, _⟩ := tryCollapse_pre (h5 h)
      rw [h3] at r1; cases r1
      exact r2

end LNode
end EthTrie
