import Verif.Subset.Batch

/-!
# Operations on partial views
-/

namespace EthTrie

open Spec KMap

namespace LNode

variable {kec : Bytes → H256}

theorem View.mkExt {p t : LNode} (n : Key) (h : View kec p t) :
    View kec (LNode.mkExt n p) (LNode.mkExt n t) := by
  cases n with
  | nil => exact h
  | cons d n => exact .ext _ _ _ h

theorem View.upd {ps cs : Fin 16 → LNode} {p c : LNode} (h : ∀ i, View kec (ps i) (cs i))
    (hc : View kec p c) (d : Fin 16) : ∀ i, View kec (EthTrie.upd ps d p i) (EthTrie.upd cs d c i) := by
  intro i
  by_cases hi : i = d
  · subst hi; simpa using hc
  · simpa [upd_other _ _ hi] using h i

/-- If insertion into a partial trie succeeds it succeeds in the full one. -/
theorem View.insert {p t : LNode} (h : View kec p t) {v : ValOrHash} :
    ∀ {k : Key} {p' : LNode}, p.insert k v = .ok p' →
      ∃ t', t.insert k v = .ok t' ∧ View kec p' t' := by
  induction h with
  | away l x he => intro k p' hp; simp [LNode.insert] at hp
  | empty => intro k p' hp; exact ⟨p', hp, View.refl _ _⟩
  | leaf n w => intro k p' hp; exact ⟨p', hp, View.refl _ _⟩
  | branch ps cs w h ih =>
    intro k p' hp
    cases k with
    | nil =>
      cases v with
      | val x =>
        simp only [LNode.insert, Except.ok.injEq] at hp
        exact ⟨_, rfl, hp ▸ .branch _ _ _ h⟩
      | hash x => simp [LNode.insert] at hp
    | cons d k =>
      simp only [LNode.insert, R_bind_eq_ok] at hp
      obtain ⟨c, h1, h2⟩ := hp
      obtain ⟨c', h3, h4⟩ := ih d h1
      cases h2
      exact ⟨.branch (EthTrie.upd cs d c') w, by simp only [LNode.insert, h3, R_bind_ok, R_pure],
        .branch _ _ _ (View.upd h h4 d)⟩
  | ext n p c h ih =>
    intro k p' hp
    simp only [LNode.insert] at hp ⊢
    split at hp
    · rename_i hc
      rw [if_pos hc]
      rw [R_bind_eq_ok] at hp
      obtain ⟨c', h1, h2⟩ := hp
      obtain ⟨t', h3, h4⟩ := ih h1
      cases h2
      exact ⟨.ext n t', by simp only [h3, R_bind_ok, R_pure], .ext _ _ _ h4⟩
    · rename_i hc
      rw [if_neg hc]
      split at hp
      · rename_i e nr d kr h1 h2
        cases hp
        refine ⟨_, rfl, View.mkExt _ (.branch _ _ _ (View.upd (View.upd (fun i => View.refl _ _)
          (View.mkExt _ h) e) (View.refl _ _) d))⟩
      · cases hp

/-- Is the node a leaf or an extension? -/
def LeafOrExt : LNode → Prop
  | .leaf _ _ => True
  | .ext _ _ => True
  | _ => False

/-- The key leads to a leaf in a branch of `p` with exactly one other child; this child is a hash
node; and it stands for a leaf or an extension of `t`. -/
def LastHash (p t : LNode) (k : Key) : Prop :=
  ∃ q d i r cs v h u w, k = q ++ d :: r ∧ At p q (.branch cs v) ∧ i ≠ d ∧
    (∀ j, cs j ≠ .empty → j = d ∨ j = i) ∧ cs d = .leaf r w ∧ cs i = .hash h ∧ At t (q ++ [i]) u ∧
    u.LeafOrExt

theorem collapse_ne_empty {n : Key} {c r : LNode} (h : LNode.collapse n c = .ok r) : r ≠ .empty := by
  cases c <;> simp only [LNode.collapse, Except.ok.injEq, reduceCtorEq] at h <;> subst h <;> simp

/-- Only a leaf disappears. -/
theorem deleteRec_empty {l : LNode} {k : Key} {x : Bytes} (h : l.deleteRec k = .ok (some (.empty, x))) :
    l = .leaf k x := by
  cases l with
  | empty => simp [LNode.deleteRec] at h
  | hash y => simp [LNode.deleteRec] at h
  | leaf n v =>
    simp only [LNode.deleteRec, Except.ok.injEq] at h
    split at h
    · rename_i e; simp at h; rw [e, h]
    · cases h
  | branch cs v =>
    cases k with
    | nil => simp [LNode.deleteRec] at h
    | cons d k =>
      exfalso
      simp only [LNode.deleteRec, R_bind_eq_ok] at h
      obtain ⟨o, _, h⟩ := h
      cases o with
      | none => cases h
      | some cx =>
        simp only at h
        split at h
        · split at h <;> cases h
        · rw [R_bind_eq_ok] at h
          obtain ⟨_, _, h⟩ := h
          cases h
  | ext n c =>
    exfalso
    simp only [LNode.deleteRec] at h
    split at h
    · rw [R_bind_eq_ok] at h
      obtain ⟨o, _, h⟩ := h
      cases o with
      | none => cases h
      | some cx =>
        simp only [R_bind_eq_ok] at h
        obtain ⟨r, h1, h⟩ := h
        cases h
        exact collapse_ne_empty h1 rfl
    · cases h

/-- A hash directly below an extension does not stand for a leaf or extension. -/
def Solid (p t : LNode) : Prop :=
  ∀ n h c, p = .ext n (.hash h) → t = .ext n c → ¬ c.LeafOrExt

theorem numNonEmpty_view {ps cs : Fin 16 → LNode} (h : ∀ i, View kec (ps i) (cs i)) :
    numNonEmpty ps = numNonEmpty cs ∧ ∀ d, other ps d = other cs d := by
  have : ∀ i, (ps i).isEmpty = (cs i).isEmpty := by
    intro i
    have := (h i).empty_iff
    rw [Bool.eq_iff_iff, isEmpty_iff, isEmpty_iff, this]
  simp only [numNonEmpty, other, this, implies_true, and_self]

theorem not_leafOrExt {x : H256} {c : LNode} (hv : View kec (.hash x) c) (h : ¬ c.LeafOrExt) (n : Key) :
    collapse n c = .ok (.ext n c) := by
  cases c with
  | empty =>
    cases hv with
    | away _ _ he => simp [LNode.enc] at he
  | hash y => rfl
  | branch cs v => rfl
  | ext m c => exact absurd trivial h
  | leaf m v => exact absurd trivial h

theorem View.collapse {p t r : LNode} (h : View kec p t) (hp : ∀ x, p ≠ .hash x) {n : Key}
    (hs : Solid p t) (hr : LNode.collapse n p = .ok r) :
    ∃ r', LNode.collapse n t = .ok r' ∧ View kec r r' ∧ (∀ x, r ≠ .hash x) ∧ Solid r r' := by
  cases h with
  | away l x he => exact absurd rfl (hp x)
  | empty => cases hr
  | branch ps cs v h =>
    cases hr
    refine ⟨_, rfl, .ext _ _ _ (.branch _ _ _ h), by simp, ?_⟩
    intro n h c e; simp at e
  | ext m p c h =>
    cases hr
    refine ⟨_, rfl, .ext _ _ _ h, by simp, ?_⟩
    intro n' x c' e1 e2
    simp only [LNode.ext.injEq] at e1 e2
    exact hs m x c' (by rw [e1.2]) (by rw [e2.2])
  | leaf m v =>
    cases hr
    refine ⟨_, rfl, .leaf _ _, by simp, ?_⟩
    intro n h c e; simp at e

theorem View.tryCollapse {p t r : LNode} (h : View kec p t) (hs : Solid p t)
    (hr : LNode.tryCollapse p = .ok r) : 
    (∀ x, p ≠ .hash x) → ∃ r', LNode.tryCollapse t = .ok r' ∧ View kec r r' := by
  intro hp
  cases h with
  | away l x he => exact absurd rfl (hp x)
  | empty => cases hr; exact ⟨_, rfl, .empty⟩
  | branch ps cs v h => cases hr; exact ⟨_, rfl, .branch _ _ _ h⟩
  | leaf m v => cases hr; exact ⟨_, rfl, .leaf _ _⟩
  | ext m p c h =>
    simp only [LNode.tryCollapse] at hr ⊢
    by_cases hh : ∃ x, p = .hash x
    · obtain ⟨x, rfl⟩ := hh
      cases hr
      have := hs m x c rfl rfl
      exact ⟨_, not_leafOrExt h this m, .ext _ _ _ h⟩
    · cases h with
      | away l x he => exact absurd ⟨x, rfl⟩ hh
      | empty => cases hr
      | branch ps cs v h => cases hr; exact ⟨_, rfl, .ext _ _ _ (.branch _ _ _ h)⟩
      | leaf m v => cases hr; exact ⟨_, rfl, .leaf _ _⟩
      | ext m p c h => cases hr; exact ⟨_, rfl, .ext _ _ _ h⟩

theorem View.deleteRec {p t : LNode} (h : View kec p t) : ∀ {k : Key}, ¬ LastHash p t k →
    (p.deleteRec k = .ok none → t.deleteRec k = .ok none) ∧
    ∀ {p' : LNode} {x : Bytes}, p.deleteRec k = .ok (some (p', x)) →
      ∃ t', t.deleteRec k = .ok (some (t', x)) ∧ View kec p' t' ∧ (∀ y, p' ≠ .hash y) ∧
        Solid p' t' := by
  induction h with
  | away l x he => intro k _; simp [LNode.deleteRec]
  | empty => intro k _; simp [LNode.deleteRec]
  | leaf n w =>
    intro k _
    refine ⟨id, fun {p' x} hp => ⟨p', hp, View.refl _ _, ?_, ?_⟩⟩ <;>
    simp only [LNode.deleteRec, Except.ok.injEq] at hp <;> split at hp <;>
      simp at hp <;> obtain ⟨rfl, rfl⟩ := hp
    · simp
    · intro n h c e; simp at e
  | branch ps cs w h ih =>
    intro k hl
    obtain ⟨hnum, hoth⟩ := numNonEmpty_view h
    cases k with
    | nil =>
      refine ⟨by simp [LNode.deleteRec], fun {p' x} hp => ?_⟩
      simp only [LNode.deleteRec, Except.ok.injEq, Option.some.injEq, Prod.mk.injEq] at hp
      obtain ⟨rfl, rfl⟩ := hp
      refine ⟨_, rfl, .branch _ _ _ h, by simp, ?_⟩
      intro n h c e; simp at e
    | cons d k =>
      have hl' : ¬ LastHash (ps d) (cs d) k := by
        rintro ⟨q, e, i, r, cs', v, x, u, w', rfl, h1, h2, h3, h3', h4, h5, h6⟩
        exact hl ⟨d :: q, e, i, r, cs', v, x, u, w', rfl, .branch _ _ _ _ _ h1, h2, h3, h3', h4,
          .branch _ _ _ _ _ h5, h6⟩
      obtain ⟨ih1, ih2⟩ := ih d hl'
      constructor
      · intro hp
        simp only [LNode.deleteRec, R_bind_eq_ok] at hp
        obtain ⟨o, h1, h2⟩ := hp
        cases o with
        | none => simp only [LNode.deleteRec, ih1 h1, R_bind_ok, R_pure]
        | some cx =>
          exfalso
          obtain ⟨c, x⟩ := cx
          simp only at h2
          split at h2
          · split at h2 <;> cases h2
          · rw [R_bind_eq_ok] at h2
            obtain ⟨_, _, h2⟩ := h2
            cases h2
      · intro p' x hp
        simp only [LNode.deleteRec, R_bind_eq_ok] at hp
        obtain ⟨o, h1, h2⟩ := hp
        cases o with
        | none => simp at h2
        | some cx =>
          obtain ⟨c, y⟩ := cx
          obtain ⟨c', g1, g2, g3, g4⟩ := ih2 h1
          have hemp : (c.isEmpty = true) ↔ (c'.isEmpty = true) := by
            rw [isEmpty_iff, isEmpty_iff, g2.empty_iff]
          simp only [LNode.deleteRec, g1, R_bind_ok]
          simp only at h2
          split at h2
          · rename_i hc
            rw [if_pos (by rw [← hnum, ← hemp]; exact hc), ← hoth]
            split at h2
            · rename_i i hi
              cases h2
              refine ⟨.ext [i] (cs i), by simp only [hi, R_pure], .ext _ _ _ (h i), by simp, ?_⟩
              intro n z c'' e1 e2 hlo
              simp only [LNode.ext.injEq] at e1 e2
              obtain ⟨_, rfl⟩ := e2
              have hi' := List.find?_some hi
              simp only [bne_iff_ne, ne_eq, Bool.and_eq_true, Bool.not_eq_true'] at hi'
              have hid : i ≠ d := fun e => hi'.1 (by rw [e])
              have hie : ps i ≠ .empty := fun e => by simp [e, isEmpty] at hi'
              have hde : ps d ≠ .empty := fun e => by
                rw [e] at h1; simp [LNode.deleteRec] at h1
              have hleaf := deleteRec_empty (by rw [isEmpty_iff.1 hc.1] at h1; exact h1)
              refine hl ⟨[], d, i, k, ps, w, z, cs i, _, rfl, .here _, hid, ?_, hleaf, e1.2,
                .branch _ _ _ _ _ (.here _), hlo⟩
              intro j hj
              by_contra hcon
              rw [not_or] at hcon
              exact hj (numNonEmpty_two hc.2 hde hie (Ne.symm hid) (Ne.symm hcon.1) (Ne.symm hcon.2))
            · cases h2
          · rename_i hc
            rw [if_neg (by rw [← hnum, ← hemp]; exact hc)]
            rw [R_bind_eq_ok] at h2
            obtain ⟨c1, h3, h4⟩ := h2
            cases h4
            obtain ⟨c2, h5, h6⟩ := g2.tryCollapse g4 h3 g3
            refine ⟨.branch (EthTrie.upd cs d c2) w, by simp only [h5, R_bind_ok, R_pure],
              .branch _ _ _ (View.upd h h6 d), by simp, ?_⟩
            intro n h c e; simp at e
  | ext n p c h ih =>
    intro k hl
    simp only [LNode.deleteRec]
    split
    · rename_i hk
      have hl' : ¬ LastHash p c (k.drop n.length) := by
        rintro ⟨q, e, i, r, cs', v, x, u, w', hq, h1, h2, h3, h3', h4, h5, h6⟩
        rcases hk with ⟨s, rfl⟩ | hk
        · rw [List.drop_left] at hq
          subst hq
          exact hl ⟨n ++ q, e, i, r, cs', v, x, u, w', by simp, .ext _ _ _ _ h1, h2, h3, h3', h4,
            by rw [List.append_assoc]; exact .ext _ _ _ _ h5, h6⟩
        · rw [List.drop_eq_nil_of_le hk.length_le] at hq
          simp at hq
      obtain ⟨ih1, ih2⟩ := ih hl'
      constructor
      · intro hp
        rw [R_bind_eq_ok] at hp
        obtain ⟨o, h1, h2⟩ := hp
        cases o with
        | none => simp only [ih1 h1, R_bind_ok, R_pure]
        | some cx =>
          exfalso
          obtain ⟨c, x⟩ := cx
          simp only [R_bind_eq_ok] at h2
          obtain ⟨_, _, h2⟩ := h2
          cases h2
      · intro p' x hp
        rw [R_bind_eq_ok] at hp
        obtain ⟨o, h1, h2⟩ := hp
        cases o with
        | none => simp at h2
        | some cx =>
          obtain ⟨c1, y⟩ := cx
          obtain ⟨c2, g1, g2, g3, g4⟩ := ih2 h1
          simp only [R_bind_eq_ok] at h2
          obtain ⟨r, h3, h4⟩ := h2
          cases h4
          obtain ⟨r', h5, h6⟩ := g2.collapse g3 g4 h3
          exact ⟨r', by simp only [g1, R_bind_ok, h5, R_pure], h6⟩
    · simp

/-- If deletion from a partial trie succeeds it succeeds in the full one, unless a branch is
collapsed onto a hash node that stands for a leaf or an extension. -/
theorem View.delete {p t : LNode} (h : View kec p t) {k : Key} (hl : ¬ LastHash p t k) {p' : LNode}
    {o : Option Bytes} (hp : p.delete k = .ok (p', o)) :
    ∃ t', t.delete k = .ok (t', o) ∧ View kec p' t' := by
  obtain ⟨h1, h2⟩ := h.deleteRec hl
  simp only [LNode.delete, R_bind_eq_ok] at hp
  obtain ⟨r, hr, hp⟩ := hp
  cases r with
  | none =>
    cases hp
    exact ⟨t, by simp only [LNode.delete, h1 hr, R_bind_ok, R_pure], h⟩
  | some cx =>
    obtain ⟨c, x⟩ := cx
    obtain ⟨c', g1, g2, g3, g4⟩ := h2 hr
    simp only [R_bind_eq_ok] at hp
    obtain ⟨r, h3, h4⟩ := hp
    cases h4
    obtain ⟨r', h5, h6⟩ := g2.tryCollapse g4 h3 g3
    exact ⟨r', by simp only [LNode.delete, g1, R_bind_ok, h5, R_pure], h6⟩

/-! ### With the assertion on merged keys -/

theorem not_leafOrExtA {x : H256} {c : LNode} (hv : View kec (.hash x) c) (h : ¬ c.LeafOrExt) (n : Key) :
    collapseA n c = .ok (.ext n c) := by
  cases c with
  | empty =>
    cases hv with
    | away _ _ he => simp [LNode.enc] at he
  | hash y => rfl
  | branch cs v => rfl
  | ext m c => exact absurd trivial h
  | leaf m v => exact absurd trivial h

theorem View.collapseA {p t r : LNode} (h : View kec p t) (hp : ∀ x, p ≠ .hash x) {n : Key}
    (hs : Solid p t) (hr : LNode.collapseA n p = .ok r) :
    ∃ r', LNode.collapseA n t = .ok r' ∧ View kec r r' ∧ (∀ x, r ≠ .hash x) ∧ Solid r r' := by
  cases h with
  | away l x he => exact absurd rfl (hp x)
  | empty => cases hr
  | branch ps cs v h =>
    cases hr
    refine ⟨_, rfl, .ext _ _ _ (.branch _ _ _ h), by simp, ?_⟩
    intro n h c e; simp at e
  | ext m p c h =>
    simp only [LNode.collapseA] at hr ⊢
    split at hr
    · rename_i hle
      rw [if_pos hle]
      cases hr
      refine ⟨_, rfl, .ext _ _ _ h, by simp, ?_⟩
      intro n' x c' e1 e2
      simp only [LNode.ext.injEq] at e1 e2
      exact hs m x c' (by rw [e1.2]) (by rw [e2.2])
    · cases hr
  | leaf m v =>
    simp only [LNode.collapseA] at hr ⊢
    split at hr
    · rename_i hle
      rw [if_pos hle]
      cases hr
      refine ⟨_, rfl, .leaf _ _, by simp, ?_⟩
      intro n h c e; simp at e
    · cases hr

theorem View.tryCollapseA {p t r : LNode} (h : View kec p t) (hs : Solid p t)
    (hr : LNode.tryCollapseA p = .ok r) : 
    (∀ x, p ≠ .hash x) → ∃ r', LNode.tryCollapseA t = .ok r' ∧ View kec r r' := by
  intro hp
  cases h with
  | away l x he => exact absurd rfl (hp x)
  | empty => cases hr; exact ⟨_, rfl, .empty⟩
  | branch ps cs v h => cases hr; exact ⟨_, rfl, .branch _ _ _ h⟩
  | leaf m v => cases hr; exact ⟨_, rfl, .leaf _ _⟩
  | ext m p c h =>
    simp only [LNode.tryCollapseA] at hr ⊢
    by_cases hh : ∃ x, p = .hash x
    · obtain ⟨x, rfl⟩ := hh
      cases hr
      have := hs m x c rfl rfl
      exact ⟨_, not_leafOrExtA h this m, .ext _ _ _ h⟩
    · cases h with
      | away l x he => exact absurd ⟨x, rfl⟩ hh
      | empty => cases hr
      | branch ps cs v h => cases hr; exact ⟨_, rfl, .ext _ _ _ (.branch _ _ _ h)⟩
      | leaf m' v =>
        simp only [LNode.collapseA] at hr ⊢
        split at hr
        · rename_i hle
          rw [if_pos hle]
          cases hr; exact ⟨_, rfl, .leaf _ _⟩
        · cases hr
      | ext m' p c h =>
        simp only [LNode.collapseA] at hr ⊢
        split at hr
        · rename_i hle
          rw [if_pos hle]
          cases hr; exact ⟨_, rfl, .ext _ _ _ h⟩
        · cases hr

theorem View.deleteRecA {p t : LNode} (h : View kec p t) : ∀ {k : Key}, ¬ LastHash p t k →
    (p.deleteRecA k = .ok none → t.deleteRecA k = .ok none) ∧
    ∀ {p' : LNode} {x : Bytes}, p.deleteRecA k = .ok (some (p', x)) →
      ∃ t', t.deleteRecA k = .ok (some (t', x)) ∧ View kec p' t' ∧ (∀ y, p' ≠ .hash y) ∧
        Solid p' t' := by
  induction h with
  | away l x he => intro k _; simp [LNode.deleteRecA]
  | empty => intro k _; simp [LNode.deleteRecA]
  | leaf n w =>
    intro k _
    refine ⟨id, fun {p' x} hp => ⟨p', hp, View.refl _ _, ?_, ?_⟩⟩ <;>
    simp only [LNode.deleteRecA, Except.ok.injEq] at hp <;> split at hp <;>
      simp at hp <;> obtain ⟨rfl, rfl⟩ := hp
    · simp
    · intro n h c e; simp at e
  | branch ps cs w h ih =>
    intro k hl
    obtain ⟨hnum, hoth⟩ := numNonEmpty_view h
    cases k with
    | nil =>
      refine ⟨by simp [LNode.deleteRecA], fun {p' x} hp => ?_⟩
      simp only [LNode.deleteRecA, Except.ok.injEq, Option.some.injEq, Prod.mk.injEq] at hp
      obtain ⟨rfl, rfl⟩ := hp
      refine ⟨_, rfl, .branch _ _ _ h, by simp, ?_⟩
      intro n h c e; simp at e
    | cons d k =>
      have hl' : ¬ LastHash (ps d) (cs d) k := by
        rintro ⟨q, e, i, r, cs', v, x, u, w', rfl, h1, h2, h3, h3', h4, h5, h6⟩
        exact hl ⟨d :: q, e, i, r, cs', v, x, u, w', rfl, .branch _ _ _ _ _ h1, h2, h3, h3', h4,
          .branch _ _ _ _ _ h5, h6⟩
      obtain ⟨ih1, ih2⟩ := ih d hl'
      constructor
      · intro hp
        simp only [LNode.deleteRecA, R_bind_eq_ok] at hp
        obtain ⟨o, h1, h2⟩ := hp
        cases o with
        | none => simp only [LNode.deleteRecA, ih1 h1, R_bind_ok, R_pure]
        | some cx =>
          exfalso
          obtain ⟨c, x⟩ := cx
          simp only at h2
          split at h2
          · split at h2 <;> cases h2
          · rw [R_bind_eq_ok] at h2
            obtain ⟨_, _, h2⟩ := h2
            cases h2
      · intro p' x hp
        simp only [LNode.deleteRecA, R_bind_eq_ok] at hp
        obtain ⟨o, h1, h2⟩ := hp
        cases o with
        | none => simp at h2
        | some cx =>
          obtain ⟨c, y⟩ := cx
          obtain ⟨c', g1, g2, g3, g4⟩ := ih2 h1
          have hemp : (c.isEmpty = true) ↔ (c'.isEmpty = true) := by
            rw [isEmpty_iff, isEmpty_iff, g2.empty_iff]
          simp only [LNode.deleteRecA, g1, R_bind_ok]
          simp only at h2
          split at h2
          · rename_i hc
            rw [if_pos (by rw [← hnum, ← hemp]; exact hc), ← hoth]
            split at h2
            · rename_i i hi
              cases h2
              refine ⟨.ext [i] (cs i), by simp only [hi, R_pure], .ext _ _ _ (h i), by simp, ?_⟩
              intro n z c'' e1 e2 hlo
              simp only [LNode.ext.injEq] at e1 e2
              obtain ⟨_, rfl⟩ := e2
              have hi' := List.find?_some hi
              simp only [bne_iff_ne, ne_eq, Bool.and_eq_true, Bool.not_eq_true'] at hi'
              have hid : i ≠ d := fun e => hi'.1 (by rw [e])
              have hie : ps i ≠ .empty := fun e => by simp [e, isEmpty] at hi'
              have hde : ps d ≠ .empty := fun e => by
                rw [e] at h1; simp [LNode.deleteRecA] at h1
              have hleaf := deleteRec_empty (by rw [isEmpty_iff.1 hc.1] at h1; exact LNode.deleteRecA_ok h1)
              refine hl ⟨[], d, i, k, ps, w, z, cs i, _, rfl, .here _, hid, ?_, hleaf, e1.2,
                .branch _ _ _ _ _ (.here _), hlo⟩
              intro j hj
              by_contra hcon
              rw [not_or] at hcon
              exact hj (numNonEmpty_two hc.2 hde hie (Ne.symm hid) (Ne.symm hcon.1) (Ne.symm hcon.2))
            · cases h2
          · rename_i hc
            rw [if_neg (by rw [← hnum, ← hemp]; exact hc)]
            rw [R_bind_eq_ok] at h2
            obtain ⟨c1, h3, h4⟩ := h2
            cases h4
            obtain ⟨c2, h5, h6⟩ := g2.tryCollapseA g4 h3 g3
            refine ⟨.branch (EthTrie.upd cs d c2) w, by simp only [h5, R_bind_ok, R_pure],
              .branch _ _ _ (View.upd h h6 d), by simp, ?_⟩
            intro n h c e; simp at e
  | ext n p c h ih =>
    intro k hl
    simp only [LNode.deleteRecA]
    split
    · rename_i hk
      have hl' : ¬ LastHash p c (k.drop n.length) := by
        rintro ⟨q, e, i, r, cs', v, x, u, w', hq, h1, h2, h3, h3', h4, h5, h6⟩
        rcases hk with ⟨s, rfl⟩ | hk
        · rw [List.drop_left] at hq
          subst hq
          exact hl ⟨n ++ q, e, i, r, cs', v, x, u, w', by simp, .ext _ _ _ _ h1, h2, h3, h3', h4,
            by rw [List.append_assoc]; exact .ext _ _ _ _ h5, h6⟩
        · rw [List.drop_eq_nil_of_le hk.length_le] at hq
          simp at hq
      obtain ⟨ih1, ih2⟩ := ih hl'
      constructor
      · intro hp
        rw [R_bind_eq_ok] at hp
        obtain ⟨o, h1, h2⟩ := hp
        cases o with
        | none => simp only [ih1 h1, R_bind_ok, R_pure]
        | some cx =>
          exfalso
          obtain ⟨c, x⟩ := cx
          simp only [R_bind_eq_ok] at h2
          obtain ⟨_, _, h2⟩ := h2
          cases h2
      · intro p' x hp
        rw [R_bind_eq_ok] at hp
        obtain ⟨o, h1, h2⟩ := hp
        cases o with
        | none => simp at h2
        | some cx =>
          obtain ⟨c1, y⟩ := cx
          obtain ⟨c2, g1, g2, g3, g4⟩ := ih2 h1
          simp only [R_bind_eq_ok] at h2
          obtain ⟨r, h3, h4⟩ := h2
          cases h4
          obtain ⟨r', h5, h6⟩ := g2.collapseA g3 g4 h3
          exact ⟨r', by simp only [g1, R_bind_ok, h5, R_pure], h6⟩
    · simp

/-- With the assertion: if deletion from a partial trie succeeds it succeeds in the full one, unless a branch is
collapsed onto a hash node that stands for a leaf or an extension. -/
theorem View.deleteA {p t : LNode} (h : View kec p t) {k : Key} (hl : ¬ LastHash p t k) {p' : LNode}
    {o : Option Bytes} (hp : p.deleteA k = .ok (p', o)) :
    ∃ t', t.deleteA k = .ok (t', o) ∧ View kec p' t' := by
  obtain ⟨h1, h2⟩ := h.deleteRecA hl
  simp only [LNode.deleteA, R_bind_eq_ok] at hp
  obtain ⟨r, hr, hp⟩ := hp
  cases r with
  | none =>
    cases hp
    exact ⟨t, by simp only [LNode.deleteA, h1 hr, R_bind_ok, R_pure], h⟩
  | some cx =>
    obtain ⟨c, x⟩ := cx
    obtain ⟨c', g1, g2, g3, g4⟩ := h2 hr
    simp only [R_bind_eq_ok] at hp
    obtain ⟨r, h3, h4⟩ := hp
    cases h4
    obtain ⟨r', h5, h6⟩ := g2.tryCollapseA g4 h3 g3
    exact ⟨r', by simp only [LNode.deleteA, g1, R_bind_ok, h5, R_pure], h6⟩

end LNode
end EthTrie
