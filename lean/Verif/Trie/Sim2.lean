import Verif.Trie.Sim

/-!
# The model refines the list-keyed tries: get, delete, hash
-/

set_option exponentiation.threshold 600

namespace EthTrie

open Nibbles Spec

/-- Without overflow checks popping more than there is gives zeros and empties the key. -/
theorem Nibbles.popNibblesFront_release {P : Profile} {l : Key} {n : Nat} (hl : l.length < n)
    (hn : n ≤ 127) (hP : P.overflowChecks = false) :
    (ofList l).popNibblesFront P n = .ok (ofList (List.replicate n 0), ofList []) := by
  have h1 : ¬ n ≤ l.length := by omega
  have h3 : ¬ (l.length + 2 ^ 64 - n) * 4 < 2 ^ 64 := by omega
  have h5 : 512 ≤ (l.length + 2 ^ 64 - n) * 4 % 2 ^ 64 := by omega
  unfold popNibblesFront getNibbleRange
  rw [truncateFront_ok P (by omega) (by omega), usub_ok (Nat.zero_le _), R_bind_ok, ofList_count]
  unfold usub
  rw [if_neg h1, hP, if_neg (by decide), R_bind_ok]
  unfold umul
  rw [if_neg h3, hP, if_neg (by decide), R_bind_ok, if_pos (by omega), R_bind_ok,
    createMask_ok (by omega), R_bind_ok, BitVec.shiftLeft_eq_zero h5]
  have hz : value (List.replicate n (0 : Fin 16)) = 0 := by
    simpa using value_replicate_append n []
  have : (⟨n - 0, ((ofList l).packed &&& 0#512) >>> ((l.length + 2 ^ 64 - n) * 4 % 2 ^ 64)⟩ : Nibbles)
      = ofList (List.replicate n 0) := by
    apply eq_ofList
    · simp; omega
    · simp
    · simp [hz]
  rw [List.drop_eq_nil_of_le (by omega)]
  exact congrArg (fun x => (Except.ok (x, ofList []) : R (Nibbles × Nibbles))) this

section
variable {kec : Bytes → H256} {α S : Type} [K : TrieKind α S] [L : KindLaws kec α S] {P : Profile}

/-! ### Get -/

theorem getIntern_eq : ∀ (l : LNode) (t : Trie α) (w : L.W) (k : Key),
    RepN kec w t l → l.Bound 127 → k.length ≤ 127 →
    getIntern P t (ofList k) = l.get P k := by
  intro l
  induction l with
  | empty => intro t w k ht hb hk; cases ht; rfl
  | hash h => intro t w k ht hb hk; cases ht; rfl
  | branch lcs x ih =>
    intro t w k ht hb hk
    cases ht with
    | branch a cs _ _ h ho =>
    simp only [getIntern, isEmpty_ofList]
    cases k with
    | nil => cases x <;> rfl
    | cons d k =>
      simp only [List.isEmpty_cons, Bool.false_eq_true, if_false]
      rw [popNextFront_ok P (by omega), R_bind_ok]
      simp only [idx16_val, R_bind_ok]
      exact ih d _ w k (h d) ((hb.2 d).mono (by omega)) (by simp at hk; omega)
  | ext n lc ih =>
    intro t w k ht hb hk
    cases ht with
    | ext a _ c _ hn h ho =>
    have hn' : n.length ≤ 127 := hb.1
    simp only [getIntern, LNode.get, ofList_count]
    by_cases hl : n.length ≤ k.length
    · rw [if_pos hl, popNibblesFront_ok P (by omega) hl (by omega), R_bind_ok]
      simp only
      rw [identicalUpToSmallest_ok P (by simp; omega) hn, R_bind_ok]
      by_cases hp : n <+: k
      · rw [if_pos hp]
        have : List.take n.length k = n := by
          obtain ⟨r, rfl⟩ := hp; simp
        simp only [this, List.prefix_refl, or_self, decide_true]
        exact ih c w _ h (hb.2.mono (by omega)) (by simp; omega)
      · rw [if_neg hp]
        have : ¬ (List.take n.length k <+: n ∨ n <+: List.take n.length k) := by
          rintro (h | h)
          · have := h.eq_of_length (by simp; omega)
            exact hp (this ▸ List.take_prefix _ _)
          · exact hp (h.trans (List.take_prefix _ _))
        simp only [this, decide_false]
        rfl
    · rw [if_neg hl]
      cases hP : P.overflowChecks with
      | true =>
        rw [popNibblesFront_panic P (by rw [ofList_count]; omega) hP]; rfl
      | false =>
        rw [popNibblesFront_release (by omega) hn' hP, R_bind_ok]
        simp only [Bool.false_eq_true, if_false]
        rw [identicalUpToSmallest_ok P (by simp; omega) hn, R_bind_ok]
        by_cases hp : n = List.replicate n.length 0
        · rw [if_pos hp]
          have : (List.replicate n.length 0 <+: n ∨ n <+: List.replicate n.length 0) :=
            .inr (by rw [← hp]; exact List.prefix_refl _)
          simp only [this, decide_true]
          exact ih c w _ h (hb.2.mono (by omega)) (by simp)
        · rw [if_neg hp]
          have : ¬ (List.replicate n.length 0 <+: n ∨ n <+: List.replicate n.length 0) := by
            rintro (h | h)
            · exact hp (h.eq_of_length (by simp)).symm
            · exact hp (h.eq_of_length (by simp))
          simp only [this, decide_false]
          rfl
  | leaf n x =>
    intro t w k ht hb hk
    cases ht with
    | leaf a _ _ hn =>
    have hn' : n.length ≤ 127 := hb
    simp only [getIntern, LNode.get]
    rw [identicalUpToSmallest_ok P hn (by omega), R_bind_ok]
    by_cases hp : n <+: k ∨ k <+: n <;> simp [hp]

/-! ### Delete -/

theorem LNode.collapse_bound {n : Key} {c r : LNode} {b : Nat} (hn : n.length ≤ b)
    (hc : c.Bound (b - n.length)) (h : LNode.collapse n c = .ok r) : r.Bound b := by
  cases c with
  | empty => simp [LNode.collapse] at h
  | hash x => simp [LNode.collapse] at h; subst h; exact ⟨hn, hc⟩
  | branch cs v => simp [LNode.collapse] at h; subst h; exact ⟨hn, hc⟩
  | ext m c =>
    simp [LNode.collapse] at h; subst h
    have h1 := hc.1
    have h2 := hc.2
    refine ⟨by simp; omega, ?_⟩
    simp only [List.length_append]
    rwa [Nat.sub_add_eq]
  | leaf m v =>
    simp [LNode.collapse] at h; subst h
    have h1 : m.length ≤ b - n.length := hc
    simp only [LNode.Bound, List.length_append]; omega

theorem LNode.tryCollapse_bound {c r : LNode} {b : Nat} (hc : c.Bound b)
    (h : LNode.tryCollapse c = .ok r) : r.Bound b := by
  cases c with
  | ext n c => exact collapse_bound hc.1 hc.2 h
  | empty => simp [LNode.tryCollapse] at h; subst h; exact hc
  | hash => simp [LNode.tryCollapse] at h; subst h; exact hc
  | branch => simp [LNode.tryCollapse] at h; subst h; exact hc
  | leaf => simp [LNode.tryCollapse] at h; subst h; exact hc

theorem LNode.upd_bound {cs : Fin 16 → LNode} {c : LNode} {b : Nat} (h : ∀ i, (cs i).Bound b)
    (hc : c.Bound b) (d : Fin 16) : ∀ i, (upd cs d c i).Bound b := by
  intro i
  by_cases hi : i = d
  · subst hi; simpa using hc
  · rw [upd_other _ _ hi]; exact h i

theorem LNode.deleteRec_bound : ∀ {l : LNode} {k : Key} {b : Nat} {r : LNode} {x : Bytes},
    l.Bound b → l.deleteRec k = .ok (some (r, x)) → r.Bound b := by
  intro l
  induction l with
  | empty => intro k b r x hb h; simp [LNode.deleteRec] at h
  | hash => intro k b r x hb h; simp [LNode.deleteRec] at h
  | branch cs v ih =>
    intro k b r x hb h
    cases k with
    | nil => simp [LNode.deleteRec] at h; obtain ⟨rfl, rfl⟩ := h; exact hb
    | cons d k =>
      simp only [LNode.deleteRec] at h
      cases e : (cs d).deleteRec k with
      | error => rw [e] at h; simp at h
      | ok o =>
        rw [e, R_bind_ok] at h
        cases o with
        | none => simp at h
        | some p =>
          obtain ⟨c, y⟩ := p
          have hc := ih d (hb.2 d) e
          simp only at h
          split at h
          · split at h
            · simp at h; obtain ⟨rfl, rfl⟩ := h
              rename_i i _
              exact ⟨hb.1, hb.2 i⟩
            · simp at h
          · cases e2 : c.tryCollapse with
            | error => rw [e2] at h; simp at h
            | ok c' =>
              rw [e2, R_bind_ok] at h
              simp at h; obtain ⟨rfl, rfl⟩ := h
              exact ⟨hb.1, upd_bound hb.2 (tryCollapse_bound hc e2) d⟩
  | ext n c ih =>
    intro k b r x hb h
    simp only [LNode.deleteRec] at h
    split at h
    · cases e : c.deleteRec (k.drop n.length) with
      | error => rw [e] at h; simp at h
      | ok o =>
        rw [e, R_bind_ok] at h
        cases o with
        | none => simp at h
        | some p =>
          obtain ⟨c', y⟩ := p
          have hc := ih hb.2 e
          simp only at h
          cases e2 : LNode.collapse n c' with
          | error => rw [e2] at h; simp at h
          | ok c'' =>
            rw [e2, R_bind_ok] at h
            simp at h; obtain ⟨rfl, rfl⟩ := h
            exact collapse_bound hb.1 hc e2
    · simp at h
  | leaf n v =>
    intro k b r x hb h
    simp only [LNode.deleteRec] at h
    split at h
    · simp at h; obtain ⟨rfl, rfl⟩ := h; trivial
    · simp at h

theorem Sim.with {A B : Type} {w : L.W} {m : Prog α A} {r : R B} {Q : L.W → A → B → Prop}
    {p : B → Prop} (h : Sim kec w m r Q) (hp : ∀ b, r = .ok b → p b) :
    Sim kec w m r (fun w' a b => Q w' a b ∧ p b) := by
  induction m generalizing w with
  | ret a =>
    obtain ⟨b, hb, hq⟩ := h
    exact ⟨b, hb, hq, hp b hb⟩
  | panic e => exact h
  | alloc k ih =>
    intro w' hle
    obtain ⟨w1, h1, h2, h3⟩ := h w' hle
    exact ⟨w1, h1, h2, ih _ h3⟩
  | read a k ih => exact fun w' hle => ih _ (h w' hle)
  | write a v k ih =>
    intro w' hle
    obtain ⟨w1, h1, h2, h3⟩ := h w' hle
    exact ⟨w1, h1, h2, ih h3⟩

/-! #### The assertion on merged keys -/

theorem LNode.collapseA_ok {n : Key} {c r : LNode} (h : LNode.collapseA n c = .ok r) :
    LNode.collapse n c = .ok r := by
  cases c with
  | ext m c =>
    simp only [LNode.collapseA] at h
    split at h
    · exact h
    · cases h
  | leaf m v =>
    simp only [LNode.collapseA] at h
    split at h
    · exact h
    · cases h
  | _ => exact h

theorem LNode.tryCollapseA_ok {c r : LNode} (h : c.tryCollapseA = .ok r) : c.tryCollapse = .ok r := by
  cases c with
  | ext m c => exact collapseA_ok h
  | _ => exact h

theorem LNode.collapseA_err {n : Key} {c : LNode} {e : Panic} (h : LNode.collapseA n c = .error e) :
    LNode.collapse n c = .error e ∨ e = .assertFailed := by
  cases c with
  | ext m c =>
    simp only [LNode.collapseA] at h
    split at h
    · cases h
    · cases h; exact .inr rfl
  | leaf m v =>
    simp only [LNode.collapseA] at h
    split at h
    · cases h
    · cases h; exact .inr rfl
  | _ => exact .inl h

theorem LNode.tryCollapseA_err {c : LNode} {e : Panic} (h : c.tryCollapseA = .error e) :
    c.tryCollapse = .error e ∨ e = .assertFailed := by
  cases c with
  | ext m c => exact collapseA_err h
  | _ => exact .inl h

theorem LNode.collapseA_eq {n : Key} {c : LNode} (hn : n.length ≤ 64) (hb : c.Bound (64 - n.length)) :
    LNode.collapseA n c = LNode.collapse n c := by
  cases c with
  | ext m c =>
    have := hb.1
    exact if_pos (by omega)
  | leaf m v =>
    have : m.length ≤ 64 - n.length := hb
    exact if_pos (by omega)
  | _ => rfl

theorem LNode.tryCollapseA_eq {c : LNode} (hb : c.Bound 64) : c.tryCollapseA = c.tryCollapse := by
  cases c with
  | ext m c => exact collapseA_eq hb.1 hb.2
  | _ => rfl

theorem LNode.deleteRecA_ok : ∀ {l : LNode} {k : Key} {o : Option (LNode × Bytes)},
    l.deleteRecA k = .ok o → l.deleteRec k = .ok o := by
  intro l
  induction l with
  | empty => intro k o h; exact h
  | hash x => intro k o h; exact h
  | leaf n v => intro k o h; exact h
  | branch cs v ih =>
    intro k o h
    cases k with
    | nil => exact h
    | cons d k =>
      simp only [LNode.deleteRecA] at h
      simp only [LNode.deleteRec]
      cases e : (cs d).deleteRecA k with
      | error => rw [e] at h; cases h
      | ok r =>
        rw [ih d e]
        rw [e] at h
        simp only [R_bind_ok] at h ⊢
        cases r with
        | none => exact h
        | some r =>
          obtain ⟨c, x⟩ := r
          simp only at h ⊢
          split
          · rename_i hc
            rwa [if_pos hc] at h
          · rename_i hc
            rw [if_neg hc] at h
            cases e2 : c.tryCollapseA with
            | error => rw [e2] at h; cases h
            | ok c' => rw [e2] at h; rw [tryCollapseA_ok e2]; exact h
  | ext n c ih =>
    intro k o h
    simp only [LNode.deleteRecA] at h
    simp only [LNode.deleteRec]
    split
    · rename_i hc
      rw [if_pos hc] at h
      cases e : c.deleteRecA (k.drop n.length) with
      | error => rw [e] at h; cases h
      | ok r =>
        rw [ih e]
        rw [e] at h
        simp only [R_bind_ok] at h ⊢
        cases r with
        | none => exact h
        | some r =>
          obtain ⟨c', x⟩ := r
          simp only at h ⊢
          cases e2 : collapseA n c' with
          | error => rw [e2] at h; cases h
          | ok c'' => rw [e2] at h; rw [collapseA_ok e2]; exact h
    · rename_i hc
      rwa [if_neg hc] at h

theorem LNode.deleteRecA_err : ∀ {l : LNode} {k : Key} {e : Panic},
    l.deleteRecA k = .error e → l.deleteRec k = .error e ∨ e = .assertFailed := by
  intro l
  induction l with
  | empty => intro k o h; exact .inl h
  | hash x => intro k o h; exact .inl h
  | leaf n v => intro k o h; exact .inl h
  | branch cs v ih =>
    intro k o h
    cases k with
    | nil => exact .inl h
    | cons d k =>
      simp only [LNode.deleteRecA] at h
      simp only [LNode.deleteRec]
      cases e : (cs d).deleteRecA k with
      | error =>
        rw [e] at h; cases h
        rcases ih d e with h | h
        · left; rw [h]; rfl
        · exact .inr h
      | ok r =>
        rw [deleteRecA_ok e]
        rw [e] at h
        simp only [R_bind_ok] at h ⊢
        cases r with
        | none => exact .inl h
        | some r =>
          obtain ⟨c, x⟩ := r
          simp only at h ⊢
          split
          · rename_i hc
            rw [if_pos hc] at h
            exact .inl h
          · rename_i hc
            rw [if_neg hc] at h
            cases e2 : c.tryCollapseA with
            | error =>
              rw [e2] at h; cases h
              rcases tryCollapseA_err e2 with h | h
              · left; rw [h]; rfl
              · exact .inr h
            | ok c' => rw [e2] at h; cases h
  | ext n c ih =>
    intro k o h
    simp only [LNode.deleteRecA] at h
    simp only [LNode.deleteRec]
    split
    · rename_i hc
      rw [if_pos hc] at h
      cases e : c.deleteRecA (k.drop n.length) with
      | error =>
        rw [e] at h; cases h
        rcases ih e with h | h
        · left; rw [h]; rfl
        · exact .inr h
      | ok r =>
        rw [deleteRecA_ok e]
        rw [e] at h
        simp only [R_bind_ok] at h ⊢
        cases r with
        | none => exact .inl h
        | some r =>
          obtain ⟨c', x⟩ := r
          simp only at h ⊢
          cases e2 : collapseA n c' with
          | error =>
            rw [e2] at h; cases h
            rcases collapseA_err e2 with h | h
            · left; rw [h]; rfl
            · exact .inr h
          | ok c'' => rw [e2] at h; cases h
    · rename_i hc
      rw [if_neg hc] at h
      exact .inl h

theorem LNode.deleteRecA_eq : ∀ {l : LNode} {k : Key}, l.Bound 64 → l.deleteRecA k = l.deleteRec k := by
  intro l
  induction l with
  | empty => intro k h; rfl
  | hash x => intro k h; rfl
  | leaf n v => intro k h; rfl
  | branch cs v ih =>
    intro k h
    cases k with
    | nil => rfl
    | cons d k =>
      simp only [LNode.deleteRecA, LNode.deleteRec]
      rw [ih d ((h.2 d).mono (by omega))]
      cases e : (cs d).deleteRec k with
      | error => rfl
      | ok r =>
        simp only [R_bind_ok]
        cases r with
        | none => rfl
        | some r =>
          obtain ⟨c, x⟩ := r
          simp only
          rw [tryCollapseA_eq ((deleteRec_bound (h.2 d) e).mono (by omega))]
  | ext n c ih =>
    intro k h
    simp only [LNode.deleteRecA, LNode.deleteRec]
    rw [ih (h.2.mono (by omega))]
    split
    · cases e : c.deleteRec (k.drop n.length) with
      | error => rfl
      | ok r =>
        simp only [R_bind_ok]
        cases r with
        | none => rfl
        | some r =>
          obtain ⟨c', x⟩ := r
          simp only
          rw [collapseA_eq h.1 (deleteRec_bound h.2 e)]
    · rfl

/-- For keys of at most 64 nibbles the assertion holds. -/
theorem LNode.deleteA_eq {l : LNode} {k : Key} (h : l.Bound 64) : l.deleteA k = l.delete k := by
  unfold deleteA delete
  rw [deleteRecA_eq h]
  cases e : l.deleteRec k with
  | error => rfl
  | ok r =>
    cases r with
    | none => rfl
    | some r =>
      simp only [R_bind_ok]
      rw [tryCollapseA_eq (deleteRec_bound h e)]

theorem LNode.deleteA_ok {l : LNode} {k : Key} {r : LNode × Option Bytes} (h : l.deleteA k = .ok r) :
    l.delete k = .ok r := by
  unfold deleteA at h
  unfold delete
  cases e : l.deleteRecA k with
  | error => rw [e] at h; cases h
  | ok o =>
    rw [e] at h
    rw [deleteRecA_ok e]
    cases o with
    | none => exact h
    | some o =>
      simp only [R_bind_ok] at h ⊢
      cases e2 : o.1.tryCollapseA with
      | error => rw [e2] at h; cases h
      | ok c => rw [e2] at h; rw [tryCollapseA_ok e2]; exact h

theorem LNode.deleteA_err {l : LNode} {k : Key} {e : Panic} (h : l.deleteA k = .error e) :
    l.delete k = .error e ∨ e = .assertFailed := by
  unfold deleteA at h
  unfold delete
  cases e : l.deleteRecA k with
  | error =>
    rw [e] at h; cases h
    rcases deleteRecA_err e with h | h
    · left; rw [h]; rfl
    · exact .inr h
  | ok o =>
    rw [e] at h
    rw [deleteRecA_ok e]
    cases o with
    | none => exact .inl h
    | some o =>
      simp only [R_bind_ok] at h ⊢
      cases e2 : o.1.tryCollapseA with
      | error =>
        rw [e2] at h; cases h
        rcases tryCollapseA_err e2 with h | h
        · left; rw [h]; rfl
        · exact .inr h
      | ok c => rw [e2] at h; cases h

theorem sim_collapse {n : Key} {c : Trie α} {lc : LNode} {w : L.W} (h : Rep kec w c lc)
    (hn : n.length ≤ 127) :
    Sim kec w (collapseExt P (ofList n) c) (LNode.collapseA n lc) (Rep kec) := by
  obtain ⟨hr, ho⟩ := h
  cases hr with
  | empty a => rfl
  | hash a x => exact sim_newExt rfl (by omega) ⟨.hash a x, ho⟩
  | branch a cs lcs v h1 h2 => exact sim_newExt rfl (by omega) ⟨.branch a cs lcs v h1 h2, ho⟩
  | ext a k c lc hk h1 h2 =>
    simp only [LNode.collapseA]
    split
    · exact Sim.lift_bind (mergeNibbles_ok P (by omega))
        (sim_newExt rfl (by simp; omega) ⟨h1, h2⟩)
    · exact Sim.lift_bind_err (mergeNibbles_err (by omega) hk (by omega))
  | leaf a k v hk =>
    simp only [LNode.collapseA]
    split
    · exact Sim.lift_bind (mergeNibbles_ok P (by omega)) (sim_newLeaf rfl (by simp; omega))
    · exact Sim.lift_bind_err (mergeNibbles_err (by omega) hk (by omega))

theorem sim_tryCollapse {c : Trie α} {lc : LNode} {w : L.W} (h : Rep kec w c lc)
    (hb : lc.Bound 127) :
    Sim kec w (tryCollapseIfExt P c) lc.tryCollapseA (Rep kec) := by
  obtain ⟨hr, ho⟩ := h
  cases hr with
  | empty a => exact Sim.pure ⟨.empty a, ho⟩
  | hash a x => exact Sim.pure ⟨.hash a x, ho⟩
  | branch a cs lcs v h1 h2 => exact Sim.pure ⟨.branch a cs lcs v h1 h2, ho⟩
  | ext a k c lc hk h1 h2 => exact sim_collapse ⟨h1, h2⟩ hb.1
  | leaf a k v hk => exact Sim.pure ⟨.leaf a k v hk, ho⟩

theorem numNonEmpty_eq {w : L.W} {cs : Fin 16 → Trie α} {lcs : Fin 16 → LNode}
    (h : ∀ i, RepN kec w (cs i) (lcs i)) :
    numNonEmptyChildren cs = LNode.numNonEmpty lcs := by
  simp only [numNonEmptyChildren, LNode.numNonEmpty, fun i => (h i).isEmpty]

theorem sim_deleteRec : ∀ (l : LNode) (t : Trie α) (w : L.W) (k : Key),
    RepN kec w t l → l.Bound 127 → k.length ≤ 127 →
    Sim kec w (deleteIntern P t (ofList k)) (l.deleteRecA k)
      (fun w' r o => match o with
        | none => r = none
        | some (l', x) => ∃ t', r = some (t', x) ∧ Rep kec w' t' l') := by
  intro l
  induction l with
  | empty => intro t w k ht hb hk; cases ht; exact Sim.pure rfl
  | hash h => intro t w k ht hb hk; cases ht; rfl
  | branch lcs x ih =>
    intro t w k ht hb hk
    cases ht with
    | branch a cs _ _ h ho =>
    simp only [deleteIntern, isEmpty_ofList]
    cases k with
    | nil =>
      exact Sim.bind_ok (sim_newBranch fun i => ⟨h i, ho i⟩) fun w' t hle hr =>
          Sim.pure ⟨_, rfl, hr⟩
    | cons d k =>
      simp only [List.isEmpty_cons, Bool.false_eq_true, if_false]
      refine Sim.lift_bind (popNextFront_ok P (by omega)) ?_
      refine Sim.lift_bind (idx16_val d) ?_
      have hbd : (lcs d).Bound 127 := (hb.2 d).mono (by omega)
      refine Sim.bind (Sim.with (p := fun o => ∀ l' x, o = some (l', x) → l'.Bound 126)
        (ih d (cs d) w k (h d) hbd (by simp at hk; omega)) ?_) ?_
      · rintro o ho' l' x rfl
        exact LNode.deleteRec_bound (hb.2 d) (LNode.deleteRecA_ok ho')
      rintro w1 r o h1 ⟨hr, hbo⟩
      cases o with
      | none => subst hr; exact Sim.pure rfl
      | some p =>
        obtain ⟨l', y⟩ := p
        obtain ⟨t', rfl, hr⟩ := hr
        simp only
        rw [hr.1.isEmpty, numNonEmpty_eq h]
        by_cases hc : l'.isEmpty = true ∧ LNode.numNonEmpty lcs ≤ 2
        · have hc' : (l'.isEmpty && decide (LNode.numNonEmpty lcs ≤ 2)) = true := by
            simpa using hc
          rw [if_pos hc, hc']
          simp only [getOtherNonEmptyChild, LNode.other, fun i => (h i).isEmpty]
          cases List.find? (fun i : Fin 16 => (i.val != d.val && !(lcs i).isEmpty)) (List.finRange 16) with
          | none => rfl
          | some i =>
            simp only
            refine Sim.bind_ok (b := LNode.ext [i] (lcs i)) (Q := Rep kec) ?_ ?_
            · refine Sim.lift_bind rfl ?_
              refine Sim.lift_bind (fromNibble_ok i.isLt) ?_
              exact sim_newExt rfl (by simp) (Rep.mono h1 ⟨h i, ho i⟩)
            · intro w2 t2 h2 hr2
              exact Sim.pure ⟨_, rfl, hr2⟩
        · have hc' : (l'.isEmpty && decide (LNode.numNonEmpty lcs ≤ 2)) = false := by
            rw [Bool.eq_false_iff]; simpa using hc
          rw [if_neg hc, hc']
          simp only
          have := sim_tryCollapse (P := P) hr ((hbo _ _ rfl).mono (by omega))
          cases e : l'.tryCollapseA with
          | error e' =>
            rw [e] at this
            exact Sim.bind_err (Sim.bind_err (D := LNode) (Q' := Rep kec) this)
          | ok c' =>
            rw [e] at this
            simp only [R_bind_ok]
            refine Sim.bind_ok (b := LNode.branch (upd lcs d c') x) (Q := Rep kec) ?_ ?_
            · refine Sim.bind_ok this fun w2 t2 h2 hr2 => ?_
              exact sim_newBranch (rep_upd (fun i => Rep.mono h2 (Rep.mono h1 ⟨h i, ho i⟩)) hr2 d)
            · intro w2 t2 h2 hr2
              exact Sim.pure ⟨_, rfl, hr2⟩
  | ext n lc ih =>
    intro t w k ht hb hk
    cases ht with
    | ext a _ c _ hn h ho =>
    have hn' : n.length ≤ 127 := hb.1
    simp only [deleteIntern, LNode.deleteRecA]
    refine Sim.lift_bind (identicalUpToSmallest_ok P (by omega) (by omega)) ?_
    by_cases hp : n <+: k ∨ k <+: n
    · rw [if_pos hp, if_pos (decide_eq_true hp), ofList_count]
      refine Sim.lift_bind (truncateFront_ok P (by omega) (by omega)) ?_
      refine Sim.bind (Sim.with (p := fun o => ∀ l' x, o = some (l', x) → l'.Bound (127 - n.length))
        (ih c w _ h (hb.2.mono (by omega)) (by simp; omega)) ?_) ?_
      · rintro o ho' l' x rfl
        exact LNode.deleteRec_bound hb.2 (LNode.deleteRecA_ok ho')
      rintro w1 r o h1 ⟨hr, hbo⟩
      cases o with
      | none => subst hr; exact Sim.pure rfl
      | some p =>
        obtain ⟨l', y⟩ := p
        obtain ⟨t', rfl, hr⟩ := hr
        simp only
        refine Sim.bind (sim_collapse hr hn') ?_
        intro w2 t2 l2 h2 hr2
        exact Sim.pure ⟨_, rfl, hr2⟩
    · rw [if_neg hp, if_neg (by simpa using hp)]
      exact Sim.pure rfl
  | leaf n x =>
    intro t w k ht hb hk
    cases ht with
    | leaf a _ _ hn =>
    simp only [deleteIntern, LNode.deleteRecA]
    rw [beq_ofList hn (by omega)]
    by_cases hp : n = k
    · rw [if_pos hp, if_pos (decide_eq_true hp)]
      exact Sim.bind_ok (sim_newEmpty w) fun w' t hle hr => Sim.pure ⟨_, rfl, hr⟩
    · rw [if_neg hp, if_neg (by simpa using hp)]
      exact Sim.pure rfl

/-! ### Hashing -/

theorem sim_cached {w : L.W} {a : α} {l : LNode} {p : Prog α EncodedNode}
    (ho : L.slot w a (some l))
    (hp : ∀ w', L.ole w w' → Sim kec w' p (.ok (l.enc kec)) (fun _ x y => x = y)) :
    Sim kec w (cached a p) (.ok (l.enc kec)) (fun _ x y => x = y) := by
  intro w' hle
  have ho := L.slot_mono hle ho
  cases hg : K.cacheGet a (L.st w') with
  | some h =>
    rw [L.get_ok ho hg]
    exact ⟨_, rfl, rfl⟩
  | none =>
    refine Sim.bind_ok (hp w' hle) ?_
    rintro w1 _ h1 rfl
    cases he : l.enc kec with
    | raw b => exact ⟨_, rfl, rfl⟩
    | hashed h =>
      intro w2 h2
      obtain ⟨w3, h3, h4⟩ := L.set_ok (L.slot_mono (L.ole_trans h1 h2) ho) he
      exact ⟨w3, h3, h4, _, rfl, rfl⟩

theorem sim_seq {β : Type} {f : β → Prog α EncodedNode} {g : β → EncodedNode}
    (xs : List β) : ∀ (w : L.W),
    (∀ x ∈ xs, ∀ w', L.ole w w' → Sim kec w' (f x) (.ok (g x)) (fun _ a b => a = b)) →
    Sim kec w (Prog.seq (xs.map f)) (.ok (xs.map g)) (fun _ a b => a = b) := by
  induction xs with
  | nil => intro w h; exact ⟨_, rfl, rfl⟩
  | cons x xs ih =>
    intro w h
    simp only [List.map_cons, Prog.seq]
    refine Sim.bind_ok (h x List.mem_cons_self w (ole_refl w)) ?_
    rintro w1 _ h1 rfl
    refine Sim.bind_ok (ih w1 fun y hy w' hw' =>
      h y (List.mem_cons_of_mem _ hy) w' (L.ole_trans h1 hw')) ?_
    rintro w2 _ h2 rfl
    exact ⟨_, rfl, rfl⟩

theorem sim_encode : ∀ (l : LNode) (t : Trie α) (w : L.W), RepN kec w t l →
    Sim kec w (encodeNode P kec t) (.ok (l.enc kec)) (fun _ x y => x = y) := by
  intro l
  induction l with
  | empty => intro t w ht; cases ht; exact ⟨_, rfl, rfl⟩
  | hash h => intro t w ht; cases ht; exact ⟨_, rfl, rfl⟩
  | branch lcs x ih =>
    intro t w ht
    cases ht with
    | branch a cs _ _ h ho =>
    simp only [encodeNode]
    refine Sim.bind_ok (sim_seq (List.finRange 16) (g := fun i => (lcs i).enc kec) w ?_) ?_
    · intro i _ w' hle
      exact sim_cached (L.slot_mono hle (ho i)) fun w'' hle' =>
        ih i _ w'' ((h i).mono (L.ole_trans hle hle'))
    · rintro w1 _ h1 rfl
      refine ⟨_, rfl, ?_⟩
      simp only [LNode.enc, List.map_map]
      cases x <;> rfl
  | ext n lc ih =>
    intro t w ht
    cases ht with
    | ext a _ c _ hn h ho =>
    simp only [encodeNode, toHexPrefix_ok P hn, Prog.lift, Prog.bind]
    refine Sim.bind_ok (sim_cached ho fun w' hle => ih c w' (h.mono hle)) ?_
    rintro w1 _ h1 rfl
    exact ⟨_, rfl, rfl⟩
  | leaf n x =>
    intro t w ht
    cases ht with
    | leaf a _ _ hn =>
    simp only [encodeNode, toHexPrefix_ok P hn, Prog.lift, Prog.bind]
    exact ⟨_, rfl, rfl⟩

/-! ### Insertion keeps paths short -/

theorem LNode.mkExt_bound {n : Key} {c : LNode} {b : Nat} (hn : n.length ≤ b)
    (hc : c.Bound (b - n.length)) : (LNode.mkExt n c).Bound b := by
  cases n with
  | nil => exact hc
  | cons => exact ⟨hn, hc⟩

theorem LNode.mkNode_bound {n : Key} {b : Nat} (v : ValOrHash) (hn : n.length ≤ b) :
    (LNode.mkNode n v).Bound b := by
  cases v with
  | val => exact hn
  | hash h => cases n with
    | nil => trivial
    | cons => exact ⟨hn, trivial⟩

theorem LNode.empties_bound (b : Nat) : ∀ i, (LNode.empties i).Bound b := fun _ => trivial

theorem LNode.insert_bound {v : ValOrHash} : ∀ {l : LNode} {k : Key} {b : Nat} {r : LNode},
    l.Bound b → k.length ≤ b → l.insert k v = .ok r → r.Bound b := by
  intro l
  induction l with
  | empty =>
    intro k b r hb hk h
    simp only [LNode.insert, Except.ok.injEq] at h; subst h
    exact mkNode_bound v hk
  | hash => intro k b r hb hk h; simp [LNode.insert] at h
  | branch cs w ih =>
    intro k b r hb hk h
    cases k with
    | nil =>
      cases v with
      | val x => simp only [LNode.insert, Except.ok.injEq] at h; subst h; exact hb
      | hash x => simp [LNode.insert] at h
    | cons d k =>
      simp only [LNode.insert] at h
      cases e : (cs d).insert k v with
      | error => rw [e] at h; simp at h
      | ok c =>
        rw [e] at h
        simp at h; subst h
        simp only [List.length_cons] at hk
        exact ⟨hb.1, upd_bound hb.2 (ih d (hb.2 d) (by omega) e) d⟩
  | ext n c ih =>
    intro k b r hb hk h
    simp only [LNode.insert] at h
    split at h
    · cases e : c.insert (k.drop n.length) v with
      | error => rw [e] at h; simp at h
      | ok c' =>
        rw [e] at h
        simp at h; subst h
        exact ⟨hb.1, ih hb.2 (by simp; omega) e⟩
    · have c1 := cpl_le_left n k
      have c2 := cpl_le_right n k
      split at h
      · rename_i e nr d kr e1 e2
        simp only [Except.ok.injEq] at h; subst h
        have l1 := congrArg List.length e1
        have l2 := congrArg List.length e2
        have h1 := hb.1
        simp only [List.length_drop, List.length_cons] at l1 l2
        refine mkExt_bound (by simp; omega) ?_
        have hp : (n.take (cpl n k)).length = cpl n k := by simp; omega
        rw [hp]
        refine ⟨by omega, upd_bound (upd_bound (empties_bound _) ?_ _) ?_ _⟩
        · exact mkExt_bound (by omega) (hb.2.mono (by omega))
        · exact mkNode_bound v (by omega)
      · simp at h
  | leaf n w =>
    intro k b r hb hk h
    have hb' : n.length ≤ b := hb
    simp only [LNode.insert] at h
    split at h
    · cases v with
      | val x => simp only [Except.ok.injEq] at h; subst h; exact hb
      | hash x => simp at h
    · have c1 := cpl_le_left n k
      have c2 := cpl_le_right n k
      have hp : (n.take (cpl n k)).length = cpl n k := by simp; omega
      split at h
      · rename_i d kr e1 e2
        simp only [Except.ok.injEq] at h; subst h
        have l2 := congrArg List.length e2
        simp only [List.length_drop, List.length_cons] at l2
        refine mkExt_bound (by simp; omega) ?_
        rw [hp]
        exact ⟨by omega, upd_bound (empties_bound _) (mkNode_bound v (by omega)) _⟩
      · rename_i e nr e1 e2
        have l1 := congrArg List.length e1
        simp only [List.length_drop, List.length_cons] at l1
        cases v with
        | hash x => simp at h
        | val x =>
        simp only [Except.ok.injEq] at h; subst h
        refine mkExt_bound (by simp; omega) ?_
        rw [hp]
        exact ⟨by omega, upd_bound (empties_bound _) (show _ ≤ _ by omega) _⟩
      · rename_i e nr d kr e1 e2
        simp only [Except.ok.injEq] at h; subst h
        have l1 := congrArg List.length e1
        have l2 := congrArg List.length e2
        simp only [List.length_drop, List.length_cons] at l1 l2
        refine mkExt_bound (by simp; omega) ?_
        rw [hp]
        refine ⟨by omega, upd_bound (upd_bound (empties_bound _) ?_ _) ?_ _⟩
        · exact (show _ ≤ _ by omega)
        · exact mkNode_bound v (by omega)
      · simp at h

theorem LNode.delete_bound {l : LNode} {k : Key} {b : Nat} {r : LNode} {o : Option Bytes}
    (hb : l.Bound b) (h : l.delete k = .ok (r, o)) : r.Bound b := by
  simp only [LNode.delete] at h
  cases e : l.deleteRec k with
  | error => rw [e] at h; simp at h
  | ok o' =>
    rw [e, R_bind_ok] at h
    cases o' with
    | none => simp at h; obtain ⟨rfl, _⟩ := h; exact hb
    | some p =>
      obtain ⟨l', x⟩ := p
      simp only at h
      cases e2 : l'.tryCollapse with
      | error => rw [e2] at h; simp at h
      | ok l'' =>
        rw [e2] at h
        simp at h; obtain ⟨rfl, _⟩ := h
        exact tryCollapse_bound (deleteRec_bound hb e) e2

end
end EthTrie
