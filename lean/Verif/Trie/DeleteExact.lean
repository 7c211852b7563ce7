import Verif.Trie.InsertExact

/-!
# The exact outcome of deletions
-/

namespace EthTrie

open Spec

namespace KMap

variable {m : KMap} {n k t q : Key} {d : Fin 16}

/-- Replace the contents below a prefix. -/
noncomputable def graft (m : KMap) (n : Key) (m1 : KMap) : KMap := fun q =>
  if n <+: q then m1 (q.drop n.length) else m q

theorem graft_append (m : KMap) (n : Key) (m1 : KMap) (q : Key) : graft m n m1 (n ++ q) = m1 q := by
  simp [graft]

theorem graft_other (m : KMap) {n : Key} (m1 : KMap) {q : Key} (h : ¬ n <+: q) :
    graft m n m1 q = m q := by
  simp [graft, h]

theorem graft_ext {m m' m1 : KMap} {n : Key} (h1 : ∀ q, m' (n ++ q) = m1 q)
    (h2 : ∀ q, ¬ n <+: q → m' q = m q) : m' = graft m n m1 := by
  funext q
  by_cases hq : n <+: q
  · obtain ⟨q, rfl⟩ := hq
    rw [h1, graft_append]
  · rw [h2 q hq, graft_other _ _ hq]

theorem leavesAt_sub : LeavesAt (m.sub n) t q d ↔ LeavesAt m (n ++ t) (n ++ q) d := by
  unfold LeavesAt
  rw [forks_sub]
  simp only [List.append_assoc, List.append_cancel_left_eq]
  rfl

theorem noOther_sub : NoOther (m.sub n) q d ↔ NoOther m (n ++ q) d := by
  simp [NoOther, sub]

theorem oneOther_sub : OneOther (m.sub n) q d ↔ OneOther m (n ++ q) d := by
  simp [OneOther, sub]

theorem LeavesAt.prefix (h : LeavesAt m t q d) : q <+: t := by
  obtain ⟨r, rfl, _⟩ := h
  exact List.prefix_append _ _

theorem LeavesAt.ne (h : LeavesAt m t q d) : q ≠ t := by
  obtain ⟨r, rfl, _⟩ := h
  simp

/-- Places where the path of `n ++ t` leaves the others are below `n` if none is above. -/
theorem leavesAt_below (hn : ∀ q d, q <+: n → q ≠ n → ¬ LeavesAt m (n ++ t) q d)
    (h : LeavesAt m (n ++ t) q d) : ∃ q', q = n ++ q' ∧ LeavesAt (m.sub n) t q' d := by
  rcases List.prefix_or_prefix_of_prefix h.prefix (List.prefix_append n t) with h1 | ⟨q', rfl⟩
  · by_cases h2 : q = n
    · subst h2
      exact ⟨[], by simp, by rw [leavesAt_sub]; simpa using h⟩
    · exact absurd h (hn q d h1 h2)
  · exact ⟨q', rfl, leavesAt_sub.2 h⟩

theorem find_sub : (m.sub n).find t = m.find (n ++ t) := rfl

theorem deleteExact_sub (hn : ∀ q h, m q = some (.hash h) → q <+: n → q = n)
    (hl : ∀ q d, q <+: n → q ≠ n → ¬ LeavesAt m (n ++ t) q d) :
    deleteExact m (n ++ t) = (deleteExact (m.sub n) t).map fun r => (graft m n r.1, r.2) := by
  unfold deleteExact
  rw [hashOn_sub hn]
  by_cases h1 : (m.sub n).HashOn t
  · rw [if_pos h1, if_pos h1]; rfl
  · rw [if_neg h1, if_neg h1]
    by_cases h2 : (m.sub n).BranchAt t
    · rw [if_pos h2, if_pos (branchAt_sub.1 h2)]
      show Except.ok _ = Except.ok _
      congr 2
      refine graft_ext (fun q => ?_) fun q hq => ?_
      · simp [erase, sub]
      · have : q ≠ n ++ t := by rintro rfl; exact hq (List.prefix_append _ _)
        simp [erase, this]
    · rw [if_neg h2, if_neg fun h => h2 (branchAt_sub.2 h), ← find_sub]
      cases (m.sub n).find t with
      | none =>
        show Except.ok _ = Except.ok _
        congr 2
        exact graft_ext (fun _ => rfl) fun _ _ => rfl
      | some x =>
        simp only
        by_cases h3 : ∃ q d, (m.sub n).LeavesAt t q d ∧ (m.sub n).NoOther q d
        · rw [if_pos h3, if_pos]
          · rfl
          · obtain ⟨q, d, h4, h5⟩ := h3
            exact ⟨n ++ q, d, leavesAt_sub.1 h4, noOther_sub.1 h5⟩
        · rw [if_neg h3, if_neg]
          · show Except.ok _ = Except.ok _
            congr 2
            refine graft_ext (fun q => ?_) fun q hq => ?_
            · dsimp only
              by_cases h4 : q = t ∨ ∃ d, (m.sub n).LeavesAt t q d ∧ (m.sub n).OneOther q d
              · rw [if_pos h4, if_pos]
                rcases h4 with rfl | ⟨d, h4, h5⟩
                · exact .inl rfl
                · exact .inr ⟨d, leavesAt_sub.1 h4, oneOther_sub.1 h5⟩
              · rw [if_neg h4, if_neg]
                · rfl
                · rintro (h5 | ⟨d, h5, h6⟩)
                  · exact h4 (.inl (List.append_cancel_left h5))
                  · exact h4 (.inr ⟨d, leavesAt_sub.2 h5, oneOther_sub.2 h6⟩)
            · rw [if_neg]
              rintro (rfl | ⟨d, h5, h6⟩)
              · exact hq (List.prefix_append _ _)
              · obtain ⟨q', rfl, _⟩ := leavesAt_below hl h5
                exact hq (List.prefix_append _ _)
          · rintro ⟨q, d, h4, h5⟩
            obtain ⟨q', rfl, h6⟩ := leavesAt_below hl h4
            exact h3 ⟨q', d, h6, noOther_sub.2 h5⟩

end KMap

namespace LNode

open KMap

/-- Extensions do not lead to `Empty`. -/
def ExtOccupied (l : LNode) : Prop := ∀ n c, l = .ext n c → c ≠ .empty

theorem collapse_extOccupied {n : Key} {c : LNode} (hc : c ≠ .empty) (hs : c.ExtOccupied) :
    ∃ r, collapse n c = .ok r ∧ absL r = absL (.ext n c) ∧ r ≠ .empty ∧ r.ExtOccupied := by
  cases c with
  | empty => exact absurd rfl hc
  | hash h => exact ⟨_, rfl, rfl, by simp, by rintro _ _ ⟨⟩; simp⟩
  | branch cs v => exact ⟨_, rfl, rfl, by simp, by rintro _ _ ⟨⟩; simp⟩
  | ext m c => exact ⟨_, rfl, absL_ext_ext n m c, by simp, by rintro _ _ ⟨⟩; exact hs m c rfl⟩
  | leaf m v => exact ⟨_, rfl, (absL_ext_leaf n m v).symm, by simp, by rintro _ _ ⟨⟩⟩

theorem tryCollapse_extOccupied {c : LNode} (hs : c.ExtOccupied) :
    ∃ r, tryCollapse c = .ok r ∧ absL r = absL c ∧ (r = .empty ↔ c = .empty) := by
  cases c with
  | empty => exact ⟨_, rfl, rfl, Iff.rfl⟩
  | hash h => exact ⟨_, rfl, rfl, Iff.rfl⟩
  | branch cs v => exact ⟨_, rfl, rfl, Iff.rfl⟩
  | leaf m v => exact ⟨_, rfl, rfl, Iff.rfl⟩
  | ext n c =>
    have hc := hs n c rfl
    cases c with
    | empty => exact absurd rfl hc
    | hash h => exact ⟨_, rfl, rfl, by simp⟩
    | branch cs v => exact ⟨_, rfl, rfl, by simp⟩
    | ext m c => exact ⟨_, rfl, absL_ext_ext n m c, by simp⟩
    | leaf m v => exact ⟨_, rfl, (absL_ext_leaf n m v).symm, by simp⟩

/-- Contents and returned value. -/
def dres (l : LNode) : Option (LNode × Bytes) → KMap × Option Bytes
  | none => (absL l, none)
  | some (l', x) => (absL l', some x)

theorem canon_extOccupied {l : LNode} (h : l.Canon) : l.ExtOccupied := by
  rintro n c rfl rfl
  exact h.2.1

/-- What is known about the result of `deleteRec`. -/
def DInv (l : LNode) (t : Key) (o : Option (LNode × Bytes)) : Prop :=
  ∀ l' x, o = some (l', x) → l'.ExtOccupied ∧ (l' = .empty ↔ ∀ s, absL l s ≠ none → s = t)

theorem graft_branch {cs : Fin 16 → LNode} {w : Bytes} {d : Fin 16} {c' : LNode} :
    absL (.branch (EthTrie.upd cs d c') w) = graft (absL (.branch cs w)) [d] (absL c') := by
  refine graft_ext (fun q => by simp) fun q hq => ?_
  cases q with
  | nil => simp
  | cons e q =>
    have : e ≠ d := by rintro rfl; exact hq (by simp)
    simp [upd_other _ _ this]

theorem graft_extL {n : Key} {c c' : LNode} :
    absL (.ext n c') = graft (absL (.ext n c)) n (absL c') := by
  refine graft_ext (fun q => by simp) fun q hq => ?_
  rw [absL_ext_none hq, absL_ext_none hq]

theorem deleteRec_exact : ∀ (l : LNode) (k : Key), l.Canon → ∃ t, Lands (absL l) k t ∧
    (l.deleteRec k).map (dres l) = deleteExact (absL l) t ∧
    ∀ o, l.deleteRec k = .ok o → DInv l t o := by
  intro l
  induction l with
  | empty =>
    intro k _
    refine ⟨k, .inl ⟨by simp [EndsInside, Below], rfl⟩, ?_, ?_⟩
    · unfold deleteExact
      rw [if_neg (by simp [HashOn]), if_neg (by simp [BranchAt, Below])]
      rfl
    · rintro o h; cases h; rintro _ _ ⟨⟩
  | hash h =>
    intro k _
    have h1 : HashOn (absL (.hash h)) k := ⟨[], h, by simp [absL_hash], List.nil_prefix⟩
    refine ⟨k, .inl ⟨?_, rfl⟩, ?_, ?_⟩
    · rintro ⟨_, ⟨d, r, h2⟩, _⟩
      simp [absL_hash] at h2
    · unfold deleteExact; rw [if_pos h1]; rfl
    · rintro o h; cases h
  | leaf n w =>
    intro k _
    have hnone : ∀ q, absL (.leaf n w) q ≠ none → q = n := by
      intro q hq
      by_contra h
      exact hq (by rw [absL_leaf, if_neg h])
    have hL : ∀ k q, absL (.leaf n w) (k ++ q) ≠ none → LoneVal (absL (.leaf n w)) k := by
      intro k q h
      have := hnone _ h
      refine ⟨q, w, by rw [this, absL_leaf, if_pos rfl], fun r hr => ?_⟩
      have := (hnone _ hr).trans this.symm
      exact List.append_cancel_left this
    have hH : ¬ HashOn (absL (.leaf n w)) k := by
      rintro ⟨q, h, h1, h2⟩
      rw [absL_leaf] at h1
      split at h1 <;> simp at h1
    have hBr : ¬ BranchAt (absL (.leaf n w)) k := by
      rintro ⟨⟨d, r, h1⟩, h2⟩
      rcases h2 with h2 | h2
      · have a := hnone _ h1
        have b := hnone _ h2
        rw [← b] at a; simp at a
      · exact h2 (hL _ _ h1)
    refine ⟨k, .inl ⟨?_, rfl⟩, ?_, ?_⟩
    · rintro ⟨_, ⟨d, r, h1⟩, _, h2⟩
      exact h2 (hL _ _ h1)
    · unfold deleteExact
      rw [if_neg hH, if_neg hBr]
      simp only [deleteRec]
      by_cases hk : n = k
      · subst hk
        have hno : ∀ q d, ¬ LeavesAt (absL (.leaf n w)) n q d := by
          rintro q d ⟨r, h1, h2, h3⟩
          rcases h2 with h2 | ⟨d, e, r, s, hde, h4, h5⟩
          · have := hnone _ h2
            rw [this] at h1; simp at h1
          · have := (hnone _ h4).trans (hnone _ h5).symm
            simp at this
            exact hde this.1
        rw [if_pos rfl]
        simp only [find, absL_leaf, if_true]
        rw [if_neg (by rintro ⟨q, d, h, _⟩; exact hno q d h)]
        show Except.ok _ = Except.ok _
        congr 1
        refine Prod.ext ?_ rfl
        funext p
        simp only [dres, absL_empty]
        by_cases hp : p = n
        · rw [if_pos (.inl hp)]
        · rw [if_neg]
          · rw [if_neg hp]
          · rintro (h | ⟨d, h, _⟩)
            · exact hp h
            · exact hno p d h
      · rw [if_neg hk]
        have : find (absL (.leaf n w)) k = none := by
          have : absL (.leaf n w) k = none := by rw [absL_leaf, if_neg fun h => hk h.symm]
          simp [find, this]
        rw [this]; rfl
    · rintro o h
      simp only [deleteRec] at h
      cases h
      intro l' x h
      split at h
      · rename_i hk
        subst hk
        cases h
        exact ⟨by rintro _ _ ⟨⟩, by simpa using hnone⟩
      · cases h
  | ext n c ih =>
    intro k hc
    obtain ⟨hn, hb, hcc⟩ := hc
    have hno : ∀ t q d, q <+: n → q ≠ n → ¬ LeavesAt (absL (.ext n c)) (n ++ t) q d := by
      rintro t q d hq hqn ⟨r, h1, h2, h3⟩
      rcases h2 with h2 | h2
      · exact hqn (ext_prefix h2 hq)
      · exact not_forks_ext hq hqn h2
    have hsub : ∀ k t, Except.map (dres c) (deleteRec c k) = deleteExact (absL c) t →
        (∀ o, deleteRec c k = .ok o → DInv c t o) → Lands (absL c) k t →
        (do match ← deleteRec c k with
            | none => return none
            | some (c', x) => do
              let r ← collapse n c'
              return some (r, x) : R (Option (LNode × Bytes))).map (dres (.ext n c)) =
          deleteExact (absL (.ext n c)) (n ++ t) ∧
        ∀ o, (do match ← deleteRec c k with
            | none => return none
            | some (c', x) => do
              let r ← collapse n c'
              return some (r, x) : R (Option (LNode × Bytes))) = .ok o → DInv (.ext n c) (n ++ t) o := by
      intro k t h1 h2 hlands
      have hx := deleteExact_sub (m := absL (.ext n c)) (n := n) (t := t)
        (fun q h hq hp => ext_prefix (by rw [hq]; simp) hp) (hno t)
      rw [absL_ext_sub, ← h1] at hx
      rw [hx]
      cases hi : deleteRec c k with
      | error e => exact ⟨rfl, by rintro o h; cases h⟩
      | ok o =>
        cases o with
        | none =>
          refine ⟨?_, by rintro o h; cases h; rintro _ _ ⟨⟩⟩
          show Except.ok _ = Except.ok _
          congr 1
          exact Prod.ext graft_extL rfl
        | some r =>
          obtain ⟨c', x⟩ := r
          obtain ⟨h3, h4⟩ := h2 _ hi c' x rfl
          have hne : c' ≠ .empty := by
            intro he
            have h5 := h4.1 he
            cases c with
            | hash h => cases hi
            | empty => exact hb
            | ext => exact hb
            | leaf => exact hb
            | branch cs w =>
              rcases hcc.bh_fork trivial with h6 | ⟨d, e, r, s, hde, h6, h7⟩
              · have h7 := h5 _ h6
                subst h7
                obtain ⟨d, r, h8⟩ := hcc.branch_below
                exact absurd (h5 _ h8) (by simp)
              · have := (h5 _ h6).trans (h5 _ h7).symm
                simp at this
                exact hde this.1
          obtain ⟨r, h5, h6, h7, h8⟩ := collapse_extOccupied (n := n) hne h3
          simp only [R_bind_ok, h5]
          constructor
          · show Except.ok _ = Except.ok _
            congr 1
            refine Prod.ext ?_ rfl
            show absL r = _
            rw [h6]
            exact graft_extL
          · rintro o h
            cases h
            rintro _ _ ⟨⟩
            refine ⟨h8, fun h => absurd h h7, fun h => ?_⟩
            refine absurd (h4.2 fun s hs => ?_) hne
            have := h (n ++ s) (by rw [absL_ext_append]; exact hs)
            exact List.append_cancel_left this
    by_cases hp : n <+: k
    · obtain ⟨k, rfl⟩ := hp
      obtain ⟨t, h1, h2, h3⟩ := ih k hcc
      have h1' := h1
      rw [← absL_ext_sub n c] at h1
      refine ⟨n ++ t, h1.of_sub, ?_⟩
      simp only [deleteRec]
      rw [if_pos (.inl (List.prefix_append _ _)), List.drop_left]
      exact hsub k t h2 h3 h1'
    · by_cases hp' : k <+: n
      · have hne : k ≠ n := by rintro rfl; exact hp List.prefix_rfl
        obtain ⟨t, h1, h2, h3⟩ := ih [] hcc
        have ht : t = [] := by
          rcases h1 with ⟨_, h1⟩ | ⟨h1, _⟩
          · exact h1
          · exact absurd h1 (hcc.bh_not_inside hb)
        subst ht
        refine ⟨n, lands_ext hcc hb hp' hne, ?_⟩
        simp only [deleteRec]
        rw [if_pos (.inr hp'), List.drop_eq_nil_of_le hp'.length_le]
        have := hsub [] [] h2 h3 h1
        rw [List.append_nil] at this
        exact this
      · have hnone : ∀ q, absL (.ext n c) q ≠ none → ¬ q <+: k ∧ ¬ k <+: q := by
          intro q hq
          obtain ⟨s, rfl, _⟩ := absL_ext_some hq
          refine ⟨fun h => hp ((List.prefix_append _ _).trans h), fun h => ?_⟩
          rcases List.prefix_or_prefix_of_prefix h (List.prefix_append n s) with h | h
          · exact hp' h
          · exact hp h
        have hB : ¬ Below (absL (.ext n c)) k := by
          rintro ⟨d, r, h⟩
          exact (hnone _ h).2 (List.prefix_append _ _)
        refine ⟨k, .inl ⟨fun h => hB h.2.1, rfl⟩, ?_, ?_⟩
        · unfold deleteExact
          rw [if_neg, if_neg fun h => hB h.1]
          · have : find (absL (.ext n c)) k = none := by simp [find, absL_ext_none hp]
            rw [this]
            simp only [deleteRec]
            rw [if_neg (by simp [hp, hp'])]
            rfl
          · rintro ⟨q, h, h1, h2⟩
            exact (hnone q (by rw [h1]; simp)).1 h2
        · rintro o h
          simp only [deleteRec] at h
          rw [if_neg (by simp [hp, hp'])] at h
          cases h
          rintro _ _ ⟨⟩
  | branch cs w ih =>
    intro k hc
    cases k with
    | nil =>
      have hH : ¬ HashOn (absL (.branch cs w)) [] := by
        rintro ⟨q, h, h1, h2⟩
        rw [List.prefix_nil] at h2; subst h2
        rw [absL_branch_nil] at h1
        split at h1 <;> simp at h1
      refine ⟨[], .inl ⟨hc.bh_not_inside trivial, rfl⟩, ?_, ?_⟩
      · unfold deleteExact
        rw [if_neg hH,
          if_pos ⟨hc.branch_below, .inr (hc.bh_not_lone trivial [] fun _ _ => List.nil_prefix)⟩]
        simp only [deleteRec]
        show Except.ok _ = Except.ok _
        congr 1
        refine Prod.ext ?_ ?_
        · funext q
          cases q <;> simp [dres, erase]
        · simp only [dres, find, absL_branch_nil]
          by_cases hw : w = [] <;> simp [hw]
      · rintro o h
        simp only [deleteRec] at h
        cases h
        rintro _ _ ⟨⟩
        refine ⟨by rintro _ _ ⟨⟩, by simp, fun h => ?_⟩
        obtain ⟨d, r, h8⟩ := hc.branch_below
        exact absurd (h _ h8) (by simp)
    | cons d k =>
      obtain ⟨t, h1, h2, h3⟩ := ih d k (hc.1 d)
      rw [← absL_branch_sub cs w d] at h1
      refine ⟨d :: t, h1.of_sub, ?_⟩
      have hn : ∀ q h, absL (.branch cs w) q = some (.hash h) → q <+: [d] → q = [d] := by
        intro q h hq hp
        cases q with
        | nil => rw [absL_branch_nil] at hq; split at hq <;> simp at hq
        | cons e q => exact hp.eq_of_length_le (by simp)
      by_cases hS : ∀ s, absL (cs d) s ≠ none → s = t
      · -- at most one entry below `d`
        have hB : ¬ Below (absL (.branch cs w)) (d :: t) := by
          rintro ⟨e, r, h⟩
          have := hS _ h
          simp at this
        have hB' : ¬ Below (absL (cs d)) t := by
          rintro ⟨e, r, h⟩
          have := hS _ h
          simp at this
        have hHs := hashOn_sub (t := t) hn
        rw [absL_branch_sub, show [d] ++ t = d :: t from rfl] at hHs
        unfold deleteExact at h2 ⊢
        by_cases hH : HashOn (absL (cs d)) t
        · rw [if_pos hH] at h2
          rw [if_pos (hHs.2 hH)]
          simp only [deleteRec]
          cases hi : deleteRec (cs d) k with
          | ok o => rw [hi] at h2; cases h2
          | error e =>
            rw [hi] at h2; cases h2
            exact ⟨rfl, by rintro o h; cases h⟩
        · rw [if_neg hH, if_neg fun h => hB' h.1] at h2
          rw [if_neg fun h => hH (hHs.1 h), if_neg fun h => hB h.1]
          have hf : find (absL (.branch cs w)) (d :: t) = find (absL (cs d)) t := rfl
          rw [hf]
          cases hx : find (absL (cs d)) t with
          | none =>
            rw [hx] at h2
            simp only [deleteRec]
            cases hi : deleteRec (cs d) k with
            | error e => rw [hi] at h2; cases h2
            | ok o =>
              rw [hi] at h2
              cases o with
              | some r => simp [dres, Except.map] at h2
              | none => exact ⟨rfl, by rintro o h; cases h; rintro _ _ ⟨⟩⟩
          | some x =>
            rw [hx] at h2
            have hno : ∀ q e, ¬ LeavesAt (absL (cs d)) t q e := by
              rintro q e ⟨r, g1, g2, g3⟩
              rcases g2 with g2 | ⟨a, b, r, s, hab, g4, g5⟩
              · have := hS _ g2
                rw [this] at g1; simp at g1
              · have := (hS _ g4).trans (hS _ g5).symm
                simp at this
                exact hab this.1
            simp only at h2
            rw [if_neg (by rintro ⟨q, e, g, _⟩; exact hno q e g)] at h2
            have ht : absL (cs d) t ≠ none := by
              intro h; simp [find, h] at hx
            have hd : cs d ≠ .empty := by
              intro h; rw [h] at ht; simp at ht
            have hleave : ∀ q e, LeavesAt (absL (.branch cs w)) (d :: t) q e ↔ q = [] ∧ e = d := by
              intro q e
              constructor
              · intro g
                cases q with
                | nil =>
                  obtain ⟨r, g1, _⟩ := g
                  simp at g1
                  exact ⟨rfl, g1.1.symm⟩
                | cons a q =>
                  have ha : a = d := by
                    obtain ⟨r, g1, _⟩ := g
                    simp at g1; exact g1.1.symm
                  subst ha
                  have : LeavesAt ((absL (.branch cs w)).sub [a]) t q e := leavesAt_sub.2 g
                  rw [absL_branch_sub] at this
                  exact absurd this (hno q e)
              · rintro ⟨rfl, rfl⟩
                exact ⟨t, rfl, hc.bh_fork trivial, fun s hs => hS s hs⟩
            cases hi : deleteRec (cs d) k with
            | error e => rw [hi] at h2; cases h2
            | ok o =>
              rw [hi] at h2
              cases o with
              | none => simp [dres, Except.map] at h2
              | some r =>
                obtain ⟨c', x'⟩ := r
                obtain ⟨g1, g2⟩ := h3 _ hi c' x' rfl
                have hc' : c' = .empty := g2.2 hS
                have hx' : x' = x := by
                  simp only [dres, Except.map, Except.ok.injEq, Prod.mk.injEq, Option.some.injEq] at h2
                  exact h2.2
                subst hc' hx'
                have hcs : ∀ e s, absL (.branch cs w) ([] ++ e :: s) ≠ none → cs e ≠ .empty := by
                  intro e s h he
                  simp [he] at h
                simp only [deleteRec, hi, R_bind_ok]
                by_cases hnum : numNonEmpty cs ≤ 2
                · rw [if_pos ⟨rfl, hnum⟩]
                  cases ho : other cs d with
                  | none =>
                    have hno' : ∀ e, e ≠ d → cs e = .empty := by
                      intro e he
                      by_contra h
                      obtain ⟨j, hj, _⟩ := other_some he h
                      rw [ho] at hj; cases hj
                    rw [if_pos]
                    · exact ⟨rfl, by rintro o h; cases h⟩
                    · refine ⟨[], d, (hleave _ _).2 ⟨rfl, rfl⟩, fun e s h => ?_⟩
                      by_contra he
                      exact hcs e s h (hno' e he)
                  | some i =>
                    have hi' := List.find?_some (by rw [other] at ho; exact ho)
                    simp only [bne_iff_ne, ne_eq, Bool.and_eq_true, Bool.not_eq_true'] at hi'
                    have hid : i ≠ d := fun h => hi'.1 (by rw [h])
                    have hie : cs i ≠ .empty := by
                      intro h; rw [h] at hi'; simp [isEmpty] at hi'
                    obtain ⟨s, hs⟩ := (hc.1 i).exists_key hie
                    rw [if_neg]
                    · refine ⟨?_, ?_⟩
                      · show Except.ok _ = Except.ok _
                        congr 1
                        refine Prod.ext ?_ rfl
                        show absL (.ext [i] (cs i)) = _
                        rw [← absL_branch_one]
                        funext p
                        dsimp only
                        cases p with
                        | nil =>
                          rw [if_pos]
                          · simp
                          · refine .inr ⟨d, (hleave _ _).2 ⟨rfl, rfl⟩, ?_⟩
                            intro e f s t he hf hed hfd
                            by_contra hef
                            exact hcs f t hf (numNonEmpty_two hnum hd (hcs e s he) (Ne.symm hed) (Ne.symm hfd) hef)
                        | cons e p =>
                          rw [absL_branch_cons]
                          by_cases hei : e = i
                          · subst hei
                            rw [upd_same, if_neg]
                            · simp
                            · rintro (h | ⟨d', h, _⟩)
                              · simp at h; exact hid h.1
                              · have := ((hleave _ _).1 h).1; simp at this
                          · rw [upd_other _ _ hei]
                            simp only [empties, absL_empty]
                            by_cases hed : e = d
                            · subst hed
                              by_cases hpt : p = t
                              · rw [if_pos (.inl (by rw [hpt]))]
                              · rw [if_neg]
                                · rw [absL_branch_cons]
                                  by_contra h
                                  exact hpt (hS p fun h' => h h'.symm)
                                · rintro (h | ⟨d', h, _⟩)
                                  · simp at h; exact hpt h
                                  · have := ((hleave _ _).1 h).1; simp at this
                            · have := numNonEmpty_two hnum hd hie (Ne.symm hid) (fun h => hed h.symm) (fun h => hei h.symm)
                              rw [if_neg]
                              · simp [this]
                              · rintro (h | ⟨d', h, _⟩)
                                · simp at h; exact hed h.1
                                · have := ((hleave _ _).1 h).1; simp at this
                      · rintro o h
                        cases h
                        rintro _ _ ⟨⟩
                        refine ⟨by rintro _ _ ⟨⟩; exact hie, by simp, fun h => ?_⟩
                        have := h (i :: s) hs
                        simp at this
                        exact absurd this.1 hid
                    · rintro ⟨q, e, g3, g4⟩
                      obtain ⟨rfl, rfl⟩ := (hleave _ _).1 g3
                      exact hid (g4 i s hs)
                · rw [if_neg fun h => hnum h.2]
                  obtain ⟨a, b, c, ha, hb, hc', hab, hac, hbc⟩ := numNonEmpty_three hnum
                  have htwo : ∃ e f, e ≠ f ∧ e ≠ d ∧ f ≠ d ∧ cs e ≠ .empty ∧ cs f ≠ .empty := by
                    by_cases had : a = d
                    · exact ⟨b, c, hbc, fun h => hab (had.trans h.symm), fun h => hac (had.trans h.symm), hb, hc'⟩
                    · by_cases hbd : b = d
                      · exact ⟨a, c, hac, had, fun h => hbc (hbd.trans h.symm), ha, hc'⟩
                      · exact ⟨a, b, hab, had, hbd, ha, hb⟩
                  obtain ⟨e, f, hef, hed, hfd, he, hf⟩ := htwo
                  obtain ⟨se, hse⟩ := (hc.1 e).exists_key he
                  obtain ⟨sf, hsf⟩ := (hc.1 f).exists_key hf
                  rw [if_neg]
                  · refine ⟨?_, ?_⟩
                    · show Except.ok _ = Except.ok _
                      congr 1
                      refine Prod.ext ?_ rfl
                      show absL (.branch (EthTrie.upd cs d .empty) w) = _
                      funext p
                      dsimp only
                      have hl : ¬ ∃ d', LeavesAt (absL (.branch cs w)) (d :: t) p d' ∧ OneOther (absL (.branch cs w)) p d' := by
                        rintro ⟨d', g3, g4⟩
                        obtain ⟨rfl, rfl⟩ := (hleave _ _).1 g3
                        exact hef (g4 e f se sf hse hsf hed hfd)
                      by_cases hp : p = d :: t
                      · rw [if_pos (.inl hp), hp]; simp
                      · rw [if_neg fun h => h.elim hp hl]
                        cases p with
                        | nil => simp
                        | cons a p =>
                          by_cases had : a = d
                          · subst had
                            have : absL (cs a) p = none := by
                              by_contra h
                              exact hp (by rw [hS p h])
                            simp [this]
                          · simp [upd_other _ _ had]
                    · rintro o h
                      cases h
                      rintro _ _ ⟨⟩
                      refine ⟨by rintro _ _ ⟨⟩, by simp, fun h => ?_⟩
                      have := h (e :: se) hse
                      simp at this
                      exact absurd this.1 hed
                  · rintro ⟨q, d', g3, g4⟩
                    obtain ⟨rfl, rfl⟩ := (hleave _ _).1 g3
                    exact hed (g4 e se hse)
      · have hl : ∀ q e, q <+: [d] → q ≠ [d] → ¬ LeavesAt (absL (.branch cs w)) ([d] ++ t) q e := by
          rintro q e hq hqd ⟨r, g1, _, g3⟩
          cases q with
          | nil =>
            simp at g1
            obtain ⟨rfl, rfl⟩ := g1
            exact hS fun s hs => g3 s hs
          | cons a q => exact hqd (hq.eq_of_length_le (by simp))
        have hx := deleteExact_sub hn hl
        rw [absL_branch_sub, ← h2] at hx
        rw [show d :: t = [d] ++ t from rfl, hx]
        simp only [deleteRec]
        cases hi : deleteRec (cs d) k with
        | error e => exact ⟨rfl, by rintro o h; cases h⟩
        | ok o =>
          cases o with
          | none =>
            refine ⟨?_, by rintro o h; cases h; rintro _ _ ⟨⟩⟩
            show Except.ok _ = Except.ok _
            congr 1
            refine Prod.ext ?_ rfl
            show absL (.branch cs w) = graft (absL (.branch cs w)) [d] (absL (cs d))
            rw [← graft_branch]
            congr 2
            funext e
            by_cases he : e = d
            · subst he; simp
            · rw [upd_other _ _ he]
          | some r =>
            obtain ⟨c', x⟩ := r
            obtain ⟨g1, g2⟩ := h3 _ hi c' x rfl
            have hne : c' ≠ .empty := fun h => hS (g2.1 h)
            have hemp : ¬ (c'.isEmpty = true ∧ numNonEmpty cs ≤ 2) := fun h => hne (isEmpty_iff.1 h.1)
            obtain ⟨r, g3, g4, _⟩ := tryCollapse_extOccupied g1
            simp only [R_bind_ok]
            rw [if_neg hemp, g3]
            refine ⟨?_, ?_⟩
            · show Except.ok _ = Except.ok _
              congr 1
              refine Prod.ext ?_ rfl
              show absL (.branch (EthTrie.upd cs d r) w) = _
              rw [graft_branch, g4]; rfl
            · rintro o h
              cases h
              rintro _ _ ⟨⟩
              refine ⟨by rintro _ _ ⟨⟩, by simp, fun h => ?_⟩
              exact absurd (fun s hs => by have := h (d :: s) hs; simpa using this) hS

/-- The exact outcome of a deletion. -/
theorem delete_exact {l : LNode} (k : Key) (hc : l.Canon) : ∃ t, Lands (absL l) k t ∧
    (l.delete k).map (fun r => (absL r.1, r.2)) = deleteExact (absL l) t := by
  obtain ⟨t, h1, h2, h3⟩ := deleteRec_exact l k hc
  refine ⟨t, h1, ?_⟩
  rw [← h2]
  unfold delete
  cases hi : deleteRec l k with
  | error e => rfl
  | ok o =>
    cases o with
    | none => rfl
    | some r =>
      obtain ⟨l', x⟩ := r
      obtain ⟨r, g1, g2, _⟩ := tryCollapse_extOccupied (h3 _ hi l' x rfl).1
      simp only [R_bind_ok, g1]
      show Except.ok (absL r, some x) = Except.ok _
      rw [g2]; rfl

end LNode
end EthTrie
