import Verif.Trie.CleanExact
import Verif.Trie.Unique

/-!
# Inserting a key and deleting it again
-/

namespace EthTrie
namespace KMap

variable {m : KMap} {k q r : Key} {v : ValOrHash}

theorem stored_ne (h : InsertClean m q v) (hr : r ≠ q) : m.stored q v r = m r := by
  unfold stored
  rw [if_neg hr, if_neg fun ⟨h1, h2⟩ => hr (h.1 r h1 h2)]

theorem stored_ext (h : InsertClean m q v) (d : Fin 16) (s : Key) :
    m.stored q v (q ++ d :: s) = m (q ++ d :: s) :=
  stored_ne h (by simp)

theorem stored_below (h : InsertClean m q v) : (m.stored q v).Below q ↔ m.Below q := by
  unfold Below
  simp only [stored_ext h]

theorem stored_forks (h : InsertClean m q v) : (m.stored q v).Forks q ↔ m.Forks q := by
  unfold Forks
  simp only [stored_ext h]

theorem stored_self (h : m.stored q v q = none) : v = .val [] ∧ m.Below q := by
  unfold stored at h
  rw [if_pos rfl] at h
  by_contra hn
  rw [if_neg hn] at h
  cases h

theorem stored_self' (h : ¬ (v = .val [] ∧ m.Below q)) : m.stored q v q = some v := by
  unfold stored
  rw [if_pos rfl, if_neg h]

theorem forks_not_lone (h : m.Forks q) : ¬ m.LoneVal q := by
  rintro ⟨s, x, _, h2⟩
  obtain ⟨d, e, r, t, h3, h4, h5⟩ := h
  have := (h2 _ h4).trans (h2 _ h5).symm
  simp at this
  exact h3 this.1

theorem forks_below (h : m.Forks q) : m.Below q := by
  obtain ⟨d, e, r, t, h3, h4, h5⟩ := h
  exact ⟨d, r, h4⟩

/-- The second call acts on the same key as the first one. -/
theorem Lands.stored (h : Lands m k q) (hH : ¬ m.HashOn q) (hc : InsertClean m q v) :
    Lands (m.stored q v) k q := by
  rcases h with ⟨h1, rfl⟩ | ⟨⟨h1, h2, h3, h4⟩, h5, h6, h7⟩
  · refine .inl ⟨fun ⟨g1, g2, g3, g4⟩ => ?_, rfl⟩
    obtain ⟨e1, e2⟩ := stored_self g1
    exact g3 ((stored_forks hc).2 (hc.2 e1 e2))
  · have hkq : k ≠ q := by
      rintro rfl
      exact h7.elim (fun h => h h1) fun h => h3 h
    have hall : ∀ r, m.stored q v r ≠ none → k <+: r → q <+: r := by
      intro r hr hkr
      by_cases hrq : r = q
      · rw [hrq]
        exact List.prefix_rfl
      · rw [stored_ne hc hrq] at hr
        exact h6 r hr hkr
    obtain ⟨u, rfl⟩ := h5
    cases u with
    | nil => simp at hkq
    | cons d u =>
    have hdir : ∀ e s, m.stored (k ++ d :: u) v (k ++ e :: s) ≠ none → e = d := by
      intro e s hs
      have := hall _ hs (List.prefix_append _ _)
      rw [List.prefix_append_right_inj, List.cons_prefix_cons] at this
      exact this.1.symm
    have hq7 : m.stored (k ++ d :: u) v (k ++ d :: u) ≠ none ∨
        (m.stored (k ++ d :: u) v).Forks (k ++ d :: u) := by
      by_contra hno
      simp only [not_or, not_not] at hno
      obtain ⟨e1, e2⟩ := stored_self hno.1
      exact hno.2 ((stored_forks hc).2 (hc.2 e1 e2))
    have hB : (m.stored (k ++ d :: u) v).Below k := by
      rcases hq7 with h | ⟨e, _, s, _, _, h, _⟩
      · exact ⟨d, u, h⟩
      · refine ⟨d, u ++ e :: s, ?_⟩
        rwa [List.append_assoc] at h
    refine .inr ⟨⟨?_, hB, ?_, ?_⟩, ⟨_, rfl⟩, hall, hq7⟩
    · rw [stored_ne hc hkq, h1]
    · rintro ⟨e, f, s, t, g1, g2, g3⟩
      exact g1 ((hdir e s g2).trans (hdir f t g3).symm)
    · rintro ⟨w, x, g1, g2⟩
      by_cases hF : m.Forks (k ++ d :: u)
      · obtain ⟨e, f, s, t, g3, g4, g5⟩ := (stored_forks hc).2 hF
        rw [List.append_assoc] at g4 g5
        have := (g2 _ g4).trans (g2 _ g5).symm
        simp at this
        exact g3 this.1
      · have hm : m (k ++ d :: u) ≠ none := h7.resolve_right hF
        obtain ⟨y, hy⟩ := Option.ne_none_iff_exists'.1 hm
        have hsq : m.stored (k ++ d :: u) v (k ++ d :: u) ≠ none := hq7.resolve_right fun h => hF ((stored_forks hc).1 h)
        have hw := g2 _ hsq
        cases y with
        | hash z => exact hH ⟨_, z, hy, List.prefix_rfl⟩
        | val z =>
          refine h4 ⟨d :: u, z, hy, fun r hr => ?_⟩
          by_contra hne
          have hr' : m.stored (k ++ d :: u) v (k ++ r) ≠ none := by
            rw [stored_ne hc (by simpa using hne)]; exact hr
          exact hne ((g2 _ hr').trans hw.symm)

theorem insertExact_val {x : Bytes} (hH : ¬ m.HashOn q) :
    insertExact m q (.val x) = .ok (m.stored q (.val x)) := by
  unfold insertExact
  rw [if_neg hH]

theorem insertExact_hashOn {m1 : KMap} (h : insertExact m q v = .ok m1) : ¬ m.HashOn q := by
  intro hH
  unfold insertExact at h
  rw [if_pos hH] at h
  cases h

/-- What is deleted is what was inserted, and nothing else changes. -/
theorem Undoable.exact {x : Bytes} (hq : m q = none) (hH : ¬ m.HashOn q) (hF : m.Below q → m.Forks q)
    (hp : ∀ p d r, q = p ++ d :: r → m p ≠ none → (∃ s, m (p ++ d :: s) ≠ none) ∨ m.Forks p)
    (hc : InsertClean m q (.val x)) :
    deleteExact (m.stored q (.val x)) q = .ok (m, some x) := by
  unfold deleteExact
  rw [if_neg]
  swap
  · rintro ⟨r, h, h1, h2⟩
    by_cases hr : r = q
    · subst hr
      unfold stored at h1
      rw [if_pos rfl] at h1
      split at h1 <;> cases h1
    · rw [stored_ne hc hr] at h1
      exact hH ⟨r, h, h1, h2⟩
  by_cases hB : (m.stored q (.val x)).BranchAt q
  · rw [if_pos hB]
    congr 1
    refine Prod.ext (funext fun p => ?_) ?_
    · dsimp only
      unfold erase
      split
      · rename_i e; rw [e, hq]
      · rename_i e; exact stored_ne hc e
    · dsimp only
      by_cases hx : ValOrHash.val x = .val [] ∧ m.Below q
      · have : m.stored q (.val x) q = none := by unfold stored; rw [if_pos rfl, if_pos hx]
        cases hx.1
        simp [find, this]
      · simp [find, stored_self' hx]
  · rw [if_neg hB]
    have hnb : ¬ m.Below q := fun hb => hB ⟨(stored_below hc).2 hb,
      .inr (forks_not_lone ((stored_forks hc).2 (hF hb)))⟩
    have hs : m.stored q (.val x) q = some (.val x) := stored_self' fun h => hnb h.2
    have hf : (m.stored q (.val x)).find q = some x := by simp [find, hs]
    rw [hf]
    dsimp only
    have hfork : ∀ p d, LeavesAt (m.stored q (.val x)) q p d → m p ≠ none →
        ∃ e f s t, e ≠ f ∧ e ≠ d ∧ f ≠ d ∧ m (p ++ e :: s) ≠ none ∧ m (p ++ f :: t) ≠ none := by
      rintro p d ⟨r, h1, h2, h3⟩ hmp
      have hd : ∀ s, m (p ++ d :: s) = none := by
        intro s
        by_contra hs'
        by_cases hs2 : p ++ d :: s = q
        · rw [hs2] at hs'; exact hs' hq
        · have := h3 s (by rw [stored_ne hc hs2]; exact hs')
          rw [this] at hs2
          exact hs2 h1.symm
      rcases hp p d r h1 hmp with ⟨s, h⟩ | ⟨e, f, s, t, g1, g2, g3⟩
      · exact absurd (hd s) h
      · refine ⟨e, f, s, t, g1, ?_, ?_, g2, g3⟩
        · rintro rfl; exact g2 (hd s)
        · rintro rfl; exact g3 (hd t)
    have hst : ∀ p d e s, (∃ r, q = p ++ d :: r) → e ≠ d → m (p ++ e :: s) ≠ none →
        m.stored q (.val x) (p ++ e :: s) ≠ none := by
      rintro p d e s ⟨r, rfl⟩ hed h
      rw [stored_ne hc]
      · exact h
      · intro h; simp at h; exact hed h.1
    rw [if_neg]
    · congr 1
      refine Prod.ext (funext fun p => ?_) rfl
      dsimp only
      split
      · rename_i h
        rcases h with rfl | ⟨d, h1, h2⟩
        · exact hq.symm
        · by_contra hmp
          obtain ⟨e, f, s, t, g1, g2, g3, g4, g5⟩ := hfork p d h1 fun h => hmp h.symm
          obtain ⟨r, hr, _⟩ := h1
          exact g1 (h2 e f s t (hst p d e s ⟨r, hr⟩ g2 g4) (hst p d f t ⟨r, hr⟩ g3 g5) g2 g3)
      · rename_i h
        exact stored_ne hc fun e => h (.inl e)
    · rintro ⟨p, d, h1, h2⟩
      have h1' := h1
      obtain ⟨r, hr, hpf, _⟩ := h1
      rcases hpf with hpf | ⟨e, f, s, t, g1, g2, g3⟩
      · have hpq : p ≠ q := by
          intro h; rw [h] at hr; simp at hr
        rw [stored_ne hc hpq] at hpf
        obtain ⟨e, f, s, t, g1, g2, g3, g4, g5⟩ := hfork p d h1' hpf
        exact g2 (h2 e s (hst p d e s ⟨r, hr⟩ g2 g4))
      · exact g1 ((h2 e s g2).trans (h2 f t g3).symm)

/-- The converse. -/
theorem undoable_of_exact {x : Bytes} (hl : Lands m k q) (hH : ¬ m.HashOn q)
    (hc : InsertClean m q (.val x)) (hd : DeleteClean (m.stored q (.val x)) q)
    (h : deleteExact (m.stored q (.val x)) q = .ok (m, some x)) : Undoable m k := by
  refine ⟨q, hl, ?_, hH, ?_, ?_⟩
  all_goals
    unfold deleteExact at h
    split at h
    · cases h
    split at h
  · have := congrFun (congrArg Prod.fst (Except.ok.inj h)) q
    simpa [erase] using this.symm
  · split at h
    · exact absurd (congrArg Prod.snd (Except.ok.inj h)) (by simp)
    split at h
    · cases h
    · have := congrFun (congrArg Prod.fst (Except.ok.inj h)) q
      simpa using this.symm
  · intro hb
    by_cases hs : m.stored q (.val x) q = none
    · obtain ⟨e1, e2⟩ := stored_self hs
      exact hc.2 e1 e2
    · exact (stored_forks hc).1 (hd hs ((stored_below hc).2 hb))
  · intro hb
    rename_i hB
    by_cases hs : m.stored q (.val x) q = none
    · obtain ⟨e1, e2⟩ := stored_self hs
      exact hc.2 e1 e2
    · exact absurd ⟨(stored_below hc).2 hb, .inl hs⟩ hB
  · intro p d r e hmp
    rename_i hB
    obtain ⟨f, s, hs⟩ := (stored_below hc).1 hB.1
    refine .inl ⟨r ++ f :: s, ?_⟩
    rw [e] at hs
    simpa using hs
  · intro p d r e hmp
    by_contra hno
    simp only [not_or, not_exists, not_not] at hno
    obtain ⟨hno, hnf⟩ := hno
    split at h
    · exact absurd (congrArg Prod.snd (Except.ok.inj h)) (by simp)
    split at h
    · cases h
    · have h3 := congrFun (congrArg Prod.fst (Except.ok.inj h)) p
      dsimp only at h3
      have hpq : p ≠ q := by
        intro h; rw [h] at e; simp at e
      rw [if_pos] at h3
      · exact hmp h3.symm
      · refine .inr ⟨d, ⟨r, e, .inl (by rw [stored_ne hc hpq]; exact hmp), fun s hs => ?_⟩, ?_⟩
        · by_cases hsq : p ++ d :: s = q
          · rw [e] at hsq; simpa using hsq
          · rw [stored_ne hc hsq] at hs
            exact absurd (hno s) hs
        · intro a b s t g1 g2 g3 g4
          by_contra hab
          rw [stored_ne hc (by rw [e]; simp [g3])] at g1
          rw [stored_ne hc (by rw [e]; simp [g4])] at g2
          exact hnf ⟨a, b, s, t, hab, g1, g2⟩

end KMap

namespace LNode

open KMap Spec

/-- An empty value is stored in a leaf only. -/
theorem Canon.empty_val : ∀ {l : LNode} {p : Key}, l.Canon → absL l p = some (.val []) →
    ¬ Below (absL l) p := by
  intro l
  induction l with
  | empty => intro p _ h; cases h
  | hash x =>
    intro p _ h
    rw [absL_hash] at h
    split at h <;> cases h
  | leaf n w =>
    rintro p _ h ⟨d, r, h1⟩
    have e1 : p = n := by
      by_contra hp
      simp [absL_leaf, hp] at h
    simp [absL_leaf, e1] at h1
  | ext n c ih =>
    intro p hc h hb
    obtain ⟨u, rfl, _⟩ := absL_ext_some (by rw [h]; simp)
    rw [← absL_ext_append n c u] at *
    exact ih hc.2.2 (by simpa using h) (by rw [← absL_ext_sub n c]; exact below_sub.2 hb)
  | branch cs w ih =>
    intro p hc h hb
    cases p with
    | nil =>
      rw [absL_branch_nil] at h
      split at h
      · cases h
      · rename_i hw; cases h; exact hw rfl
    | cons d p =>
      rw [absL_branch_cons] at h
      refine ih d (hc.1 d) h ?_
      rw [← absL_branch_sub cs w d]
      exact below_sub.2 hb

theorem collapse_absL {n : Key} {c r : LNode} (h : collapse n c = .ok r) : absL r = absL (.ext n c) := by
  cases c with
  | branch cs v => cases h; rfl
  | ext m c => cases h; rw [absL_ext_ext]
  | leaf m v => cases h; rw [absL_ext_leaf]
  | hash x => cases h; rfl
  | empty => cases h

theorem tryCollapse_absL {c r : LNode} (h : tryCollapse c = .ok r) : absL r = absL c := by
  cases c with
  | ext n c => exact collapse_absL h
  | empty => cases h; rfl
  | hash => cases h; rfl
  | branch => cases h; rfl
  | leaf => cases h; rfl

/-- Deleting adds no entries, whatever the trie is. -/
theorem deleteRec_mono : ∀ (l : LNode) (k : Key) (l' : LNode) (x : Bytes),
    l.deleteRec k = .ok (some (l', x)) → ∀ q, absL l' q ≠ none → absL l q ≠ none := by
  intro l
  induction l with
  | empty => intro k l' x h; cases h
  | hash => intro k l' x h; cases h
  | leaf n w =>
    intro k l' x h q hq
    simp only [deleteRec] at h
    split at h
    · cases h; exact absurd rfl hq
    · cases h
  | ext n c ih =>
    intro k l' x h q hq
    simp only [deleteRec] at h
    split at h
    · rw [R_bind_eq_ok] at h
      obtain ⟨o, h1, h2⟩ := h
      cases o with
      | none => cases h2
      | some o =>
        obtain ⟨c', y⟩ := o
        dsimp only at h2
        rw [R_bind_eq_ok] at h2
        obtain ⟨r, h3, h4⟩ := h2
        cases h4
        rw [collapse_absL h3] at hq
        obtain ⟨u, rfl, hu⟩ := absL_ext_some hq
        rw [absL_ext_append]
        rw [absL_ext_append] at hq
        exact ih _ _ _ h1 _ hq
    · cases h
  | branch cs w ih =>
    intro k l' x h q hq
    cases k with
    | nil =>
      cases h
      cases q with
      | nil => simp at hq
      | cons d q => exact hq
    | cons d k =>
      simp only [deleteRec, R_bind_eq_ok] at h
      obtain ⟨o, h1, h2⟩ := h
      cases o with
      | none => cases h2
      | some o =>
        obtain ⟨c', y⟩ := o
        dsimp only at h2
        split at h2
        · split at h2
          · rename_i i _
            cases h2
            obtain ⟨u, rfl, _⟩ := absL_ext_some hq
            rw [absL_ext_append] at hq
            exact hq
          · cases h2
        · rw [R_bind_eq_ok] at h2
          obtain ⟨r, h3, h4⟩ := h2
          cases h4
          cases q with
          | nil => exact hq
          | cons e q =>
            rw [absL_branch_cons] at hq ⊢
            by_cases he : e = d
            · subst he
              rw [upd_same, tryCollapse_absL h3] at hq
              exact ih e _ _ _ h1 _ hq
            · rw [upd_other _ _ he] at hq
              exact hq

theorem delete_mono {l : LNode} {k : Key} {l' : LNode} {o : Option Bytes}
    (h : l.delete k = .ok (l', o)) (q : Key) (hq : absL l' q ≠ none) : absL l q ≠ none := by
  unfold delete at h
  rw [R_bind_eq_ok] at h
  obtain ⟨o', h1, h2⟩ := h
  cases o' with
  | none => cases h2; exact hq
  | some o' =>
    obtain ⟨c', y⟩ := o'
    dsimp only at h2
    rw [R_bind_eq_ok] at h2
    obtain ⟨r, h3, h4⟩ := h2
    cases h4
    rw [tryCollapse_absL h3] at hq
    exact deleteRec_mono _ _ _ _ h1 _ hq

theorem deleteRec_prefix {n : Key} {c : LNode} {k : Key} {l' : LNode} {x : Bytes}
    (h : deleteRec (mkExt n c) (n ++ k) = .ok (some (l', x)))
    (hc : ∀ c', deleteRec c k = .ok (some (c', x)) → c'.Bad) : l'.Bad := by
  cases n with
  | nil => exact hc _ h
  | cons d n =>
    simp only [mkExt, deleteRec] at h
    rw [if_pos (.inl (List.prefix_append _ _)), List.drop_left, R_bind_eq_ok] at h
    obtain ⟨o, h1, h2⟩ := h
    cases o with
    | none => cases h2
    | some o =>
      obtain ⟨c', y⟩ := o
      dsimp only at h2
      rw [R_bind_eq_ok] at h2
      obtain ⟨r, h3, h4⟩ := h2
      cases h4
      exact (collapse_bad h3).2 (hc _ h1)

/-- An empty value stored above a single value can be deleted again, but the branch made for it stays. -/
theorem insert_empty_bad : ∀ (l : LNode) (k : Key) (l1 l2 : LNode) (x : Bytes), l.Canon →
    absL l k = none → Below (absL l) k → LoneVal (absL l) k → l.insert k (.val []) = .ok l1 →
    l1.deleteRec k = .ok (some (l2, x)) → l2.Bad := by
  intro l
  induction l with
  | empty => intro k l1 l2 x _ _ ⟨d, r, h⟩; simp at h
  | hash y => intro k l1 l2 x _ _ _ _ h; cases h
  | leaf n w =>
    intro k l1 l2 x hc hk hb hL hi hd
    obtain ⟨d, r, hr⟩ := hb
    have e1 : n = k ++ d :: r := by
      by_contra hne
      rw [absL_leaf, if_neg fun h => hne h.symm] at hr
      exact hr rfl
    subst e1
    have hcpl : cpl (k ++ d :: r) k = k.length := by
      clear * -
      induction k with
      | nil => rfl
      | cons e k ih => simp [cpl, ih]
    simp only [insert] at hi
    rw [if_neg (by simp), hcpl] at hi
    simp only [List.drop_left, List.drop_length, List.take_left'] at hi
    cases hi
    have := deleteRec_prefix (k := []) (x := x) (l' := l2) (by simpa using hd) (by
      intro c' hc'
      cases hc'
      refine .inr ?_
      rintro (⟨i, j, hij, h1, h2⟩ | ⟨h, _⟩)
      · by_cases hi : i = d
        · subst hi
          rw [upd_other _ _ (fun e => hij e.symm)] at h2
          exact h2 rfl
        · rw [upd_other _ _ hi] at h1
          exact h1 rfl
      · exact h rfl)
    exact this
  | ext n c ih =>
    intro k l1 l2 x hc hk hb hL hi hd
    have hkn : n <+: k := by
      obtain ⟨d, r, hr⟩ := hb
      obtain ⟨u, hu, _⟩ := absL_ext_some hr
      rcases List.prefix_or_prefix_of_prefix (⟨_, rfl⟩ : k <+: k ++ d :: r) ⟨u, hu.symm⟩ with h | h
      · exact absurd hL (ext_not_lone hc.2.2 hc.2.1 h)
      · exact h
    obtain ⟨k, rfl⟩ := hkn
    simp only [insert] at hi
    rw [if_pos (.inl (List.prefix_append _ _)), List.drop_left, R_bind_eq_ok] at hi
    obtain ⟨c1, h1, h2⟩ := hi
    cases h2
    have hn := hc.1
    refine deleteRec_prefix (n := n) (c := c1) (k := k) (x := x) ?_ fun c' hc' =>
      ih k c1 c' x hc.2.2 (by simpa using hk) ?_ ?_ h1 hc'
    · cases n with
      | nil => exact absurd rfl hn
      | cons => exact hd
    · rw [← absL_ext_sub n c]; exact below_sub.2 hb
    · rw [← absL_ext_sub n c]; exact loneVal_sub.2 hL
  | branch cs w ih =>
    intro k l1 l2 x hc hk hb hL hi hd
    cases k with
    | nil => exact absurd hL (hc.bh_not_lone trivial [] fun _ _ => List.nil_prefix)
    | cons d k =>
      simp only [insert, R_bind_eq_ok] at hi
      obtain ⟨c1, h1, h2⟩ := hi
      cases h2
      simp only [deleteRec, R_bind_eq_ok, upd_same] at hd
      obtain ⟨o, h3, h4⟩ := hd
      cases o with
      | none => cases h4
      | some o =>
        obtain ⟨c', y⟩ := o
        have hbad := ih d k c1 c' y (hc.1 d) hk (by rw [← absL_branch_sub cs w d]; exact below_sub.2 hb)
          (by rw [← absL_branch_sub cs w d]; exact loneVal_sub.2 hL) h1 h3
        dsimp only at h4
        rw [if_neg (fun h => by
          rw [isEmpty_iff] at h
          rw [h.1] at hbad
          exact hbad), R_bind_eq_ok] at h4
        obtain ⟨r, h5, h6⟩ := h4
        cases h6
        exact .inl ⟨d, by rw [upd_same]; exact (tryCollapse_bad h5).2 hbad⟩

theorem delete_bad {l l' : LNode} {k : Key} {x : Bytes} (h : l.delete k = .ok (l', some x))
    (hb : ∀ l2, l.deleteRec k = .ok (some (l2, x)) → l2.Bad) : l'.Bad := by
  unfold delete at h
  rw [R_bind_eq_ok] at h
  obtain ⟨o', h1, h2⟩ := h
  cases o' with
  | none => cases h2
  | some o' =>
    obtain ⟨c', y⟩ := o'
    dsimp only at h2
    rw [R_bind_eq_ok] at h2
    obtain ⟨r, h3, h4⟩ := h2
    cases h4
    exact (tryCollapse_bad h3).2 (hb _ h1)

/-- Inserting and deleting a key on a canonical trie: when the trie is the same afterwards. -/
theorem undo_iff {l : LNode} {k : Key} {v : Bytes} (hc : l.Canon) (hk : absL l k = none) :
    (∃ l1, l.insert k (.val v) = .ok l1 ∧ l1.delete k = .ok (l, some v)) ↔ Undoable (absL l) k := by
  obtain ⟨q, hq1, hq2⟩ := insert_exact (.val v) l k hc
  constructor
  · rintro ⟨l1, h1, h2⟩
    rw [h1] at hq2
    have hH := insertExact_hashOn hq2.symm
    have hs := insertExact_ok hq2.symm
    have hmono := delete_mono h2
    have hcl : InsertClean (absL l) q (.val v) := by
      constructor
      · intro p hp hpq
        by_contra hne
        refine hmono p (by rw [hp]; simp) ?_
        change absL l1 p = none
        rw [hs]
        unfold stored
        rw [if_neg hne, if_pos ⟨hp, hpq⟩]
      · intro hv hb
        by_contra hF
        cases hv
        have hqn : absL l q = none := by
          by_contra hqn
          refine hmono q hqn ?_
          change absL l1 q = none
          rw [hs]
          unfold stored
          rw [if_pos rfl, if_pos ⟨rfl, hb⟩]
        rcases hq1 with ⟨g1, rfl⟩ | ⟨_, _, _, g⟩
        · have hL : LoneVal (absL l) q := by
            by_contra hL
            exact g1 ⟨hqn, hb, hF, hL⟩
          exact hc.not_bad (delete_bad h2 fun l2 h3 => insert_empty_bad l q l1 l2 _ hc hqn hb hL h1 h3)
        · exact g.elim (fun h => h hqn) hF
    have hc1 : l1.Canon := (insert_clean (.val v) l k q l1 hc hq1 h1).1.2 hcl
    have hl := hq1.stored hH hcl
    rw [← hs] at hl
    obtain ⟨q', g1, g2⟩ := delete_exact k hc1
    have := g1.unique hl
    subst this
    rw [h2] at g2
    have hd := (delete_clean hc1 hl h2).1 hc (by simp)
    change absL l1 = _ at hs
    rw [hs] at hd g2
    exact undoable_of_exact hq1 hH hcl hd g2.symm
  · rintro ⟨q', h1, h2, h3, h4, h5⟩
    have := h1.unique hq1
    subst this
    rw [insertExact_val h3] at hq2
    have hcl : InsertClean (absL l) q' (.val v) := by
      refine ⟨fun p hp hpq => ?_, fun _ => h4⟩
      by_contra hne
      obtain ⟨u, rfl⟩ := hpq
      cases u with
      | nil => simp at hne
      | cons d r =>
        refine hc.empty_val hp ?_
        rcases h5 p d r rfl (by rw [hp]; simp) with ⟨s, hs⟩ | hF
        · exact ⟨d, s, hs⟩
        · exact forks_below hF
    cases hi : l.insert k (.val v) with
    | error e => rw [hi] at hq2; cases hq2
    | ok l1 =>
      rw [hi] at hq2
      have hs : absL l1 = _ := Except.ok.inj hq2
      refine ⟨l1, rfl, ?_⟩
      have hc1 : l1.Canon := (insert_clean (.val v) l k q' l1 hc hq1 hi).1.2 hcl
      have hl := hq1.stored h3 hcl
      rw [← hs] at hl
      obtain ⟨q2, g1, g2⟩ := delete_exact k hc1
      have := g1.unique hl
      subst this
      rw [hs, Undoable.exact h2 h3 h4 h5 hcl] at g2
      cases hd : l1.delete k with
      | error e => rw [hd] at g2; cases g2
      | ok o =>
        obtain ⟨l2, o⟩ := o
        rw [hd] at g2
        obtain ⟨e1, e2⟩ := Prod.mk.inj (Except.ok.inj g2)
        dsimp only at e1 e2
        subst e2
        have hc2 : l2.Canon := by
          refine (delete_clean hc1 hl hd).2 fun _ => ?_
          rw [hs]
          intro _ hb
          exact (stored_forks hcl).2 (h4 ((stored_below hcl).1 hb))
        rw [canon_unique l2 l hc2 hc e1]

end LNode
end EthTrie
