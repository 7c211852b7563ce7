import Verif.Sys.Pure

/-!
# Programs on the model do what programs on list-keyed tries do
-/

namespace EthTrie

open Nibbles Spec

section
variable (kec : Bytes → H256) {α S : Type} [K : TrieKind α S] [L : KindLaws kec α S]

/-- What is known about a handle. -/
structure HandleOK (w : L.W) (filled : Nat → Option H256) (next : Nat)
    (a : Trie α × LNode × Nat) : Prop where
  rep : RepN kec w a.1 a.2.1
  slot : L.slot w a.1.ann none
  bound : a.2.1.Bound 127
  ext : a.2.1.ExtOK
  fam : a.2.2 < next
  cell : K.cacheGet a.1.ann (L.st w) = filled a.2.2

/-- The program states correspond. -/
structure Inv (w : L.W) (s : Sys α S) (p : PSys) (Z : List (Trie α × LNode × Nat)) : Prop where
  state : s.state = L.st w
  hs : s.hs = Z.map (·.1)
  phs : p.hs = Z.map (·.2)
  ok : ∀ a ∈ Z, HandleOK kec w p.filled p.next a
  share : ∀ a ∈ Z, ∀ b ∈ Z, a.2.2 = b.2.2 → a.1.ann = b.1.ann
  sep : L.real → ∀ a ∈ Z, ∀ b ∈ Z, a.1.ann = b.1.ann → a.2.2 = b.2.2
  above : ∀ f, p.next ≤ f → p.filled f = none

/-- A new root in world `w`, made after world `w0`. -/
structure FreshRoot (w0 w : L.W) (t : Trie α) (l : LNode) : Prop where
  rep : RepN kec w t l
  slot : L.slot w t.ann none
  cell : K.cacheGet t.ann (L.st w) = none
  fresh : L.real → ∀ b o, L.slot w0 b o → t.ann ≠ b

variable {kec} {P : Profile}

theorem NewRel.freshRoot {w0 w : L.W} {t : Trie α} {l : LNode}
    (h : NewRel (kec := kec) true w0 w t l) : FreshRoot kec w0 w t l :=
  ⟨h.1, h.2.1, (h.2.2 rfl).1, (h.2.2 rfl).2⟩

variable {w : L.W} {s : Sys α S} {p : PSys} {Z : List (Trie α × LNode × Nat)}

/-- A step that leaves the root cells alone. -/
theorem Inv.step {w' : L.W} (h : Inv kec w s p Z) (hle : L.ole w w')
    (hc : ∀ a ∈ Z, K.cacheGet a.1.ann (L.st w') = K.cacheGet a.1.ann (L.st w)) :
    Inv kec w' ⟨L.st w', s.hs⟩ p Z where
  state := rfl
  hs := h.hs
  phs := h.phs
  ok := fun a ha => by
    have := h.ok a ha
    exact ⟨this.rep.omono hle, L.slot_mono hle this.slot, this.bound, this.ext, this.fam,
      (hc a ha).trans this.cell⟩
  share := h.share
  sep := h.sep
  above := h.above

theorem Inv.step_le {w' : L.W} (h : Inv kec w s p Z) (hle : L.le w w') :
    Inv kec w' ⟨L.st w', s.hs⟩ p Z :=
  h.step (L.ole_of_le hle) fun a ha => L.le_cell hle (h.ok a ha).slot

/-- A new handle. -/
theorem Inv.push1 {w0 : L.W} {t : Trie α} {l : LNode} (h : Inv kec w s p Z)
    (hw : ∀ a ∈ Z, ∃ o, L.slot w0 a.1.ann o) (ht : FreshRoot kec w0 w t l) (hb : l.Bound 127)
    (he : l.ExtOK) :
    Inv kec w ⟨s.state, s.hs ++ [t]⟩ ⟨p.hs ++ [(l, p.next)], p.filled, p.next + 1⟩
      (Z ++ [(t, l, p.next)]) where
  state := h.state
  hs := by simp [h.hs]
  phs := by simp [h.phs]
  ok := fun a ha => by
    rw [List.mem_append, List.mem_singleton] at ha
    rcases ha with ha | rfl
    · have := h.ok a ha
      exact ⟨this.rep, this.slot, this.bound, this.ext, Nat.lt_succ_of_lt this.fam, this.cell⟩
    · exact ⟨ht.rep, ht.slot, hb, he, Nat.lt_succ_self _,
        ht.cell.trans (h.above _ (Nat.le_refl _)).symm⟩
  share := fun a ha b hb => by
    rw [List.mem_append, List.mem_singleton] at ha hb
    rcases ha with ha | rfl <;> rcases hb with hb | rfl
    · exact h.share a ha b hb
    · intro e; exact absurd e (Nat.ne_of_lt (h.ok a ha).fam)
    · intro e; exact absurd e.symm (Nat.ne_of_lt (h.ok b hb).fam)
    · intro _; rfl
  sep := fun hR a ha b hb => by
    rw [List.mem_append, List.mem_singleton] at ha hb
    rcases ha with ha | rfl <;> rcases hb with hb | rfl
    · exact h.sep hR a ha b hb
    · intro e
      obtain ⟨o, ho⟩ := hw a ha
      exact absurd e.symm (ht.fresh hR _ _ ho)
    · intro e
      obtain ⟨o, ho⟩ := hw b hb
      exact absurd e (ht.fresh hR _ _ ho)
    · intro _; rfl
  above := fun f hf => h.above f (Nat.le_of_succ_le hf)

/-- A handle gets new contents and its cell is emptied. -/
theorem Inv.mutate {w1 w2 : L.W} {t t' : Trie α} {l l' : LNode} {f i : Nat} (h : Inv kec w s p Z)
    (hi : Z[i]? = some (t, l, f)) (h1 : L.le w w1) (h2 : L.ole w1 w2)
    (hst : L.st w2 = K.cacheSet t.ann none (L.st w1)) (hr : RepN kec w1 t' l')
    (ha : t'.ann = t.ann) (hb : l'.Bound 127) (he : l'.ExtOK) :
    Inv kec w2 ⟨L.st w2, s.hs.set i t'⟩ ⟨p.hs.set i (l', f), upd p.filled f none, p.next⟩
      (Z.set i (t', l', f)) := by
  have hmem : (t, l, f) ∈ Z := List.mem_of_getElem? hi
  have hcell : K.cacheGet t.ann (L.st w2) = none := by
    rw [hst]
    exact L.get_set_none _ _
  have old := h.ok _ hmem
  have hset : ∀ a ∈ Z.set i (t', l', f), a = (t', l', f) ∨ a ∈ Z := by
    intro a ha
    rcases List.mem_or_eq_of_mem_set ha with h | h
    · exact .inr h
    · exact .inl h
  refine ⟨rfl, by simp [h.hs, List.map_set], by simp [h.phs, List.map_set], ?_, ?_, ?_, ?_⟩
  · intro a hain
    rcases hset a hain with rfl | haZ
    · refine ⟨hr.omono h2, ?_, hb, he, old.fam, ?_⟩
      · rw [ha]; exact L.slot_mono h2 (L.slot_mono (L.ole_of_le h1) old.slot)
      · simp only [upd_same]
        rw [ha, hcell]
    · have hok := h.ok a haZ
      refine ⟨(hok.rep.mono (L.ole_of_le h1)).omono h2, L.slot_mono h2 (L.slot_mono (L.ole_of_le h1) hok.slot),
        hok.bound, hok.ext, hok.fam, ?_⟩
      by_cases e : a.2.2 = f
      · simp only [e, upd_same]
        rw [h.share a haZ _ hmem e, hcell]
      · simp only [upd_other _ _ e]
        rw [← hok.cell]
        by_cases hR : L.real
        · have e' : a.1.ann ≠ t.ann := fun e' => e (h.sep hR a haZ _ hmem e')
          rw [hst, L.get_set_ne _ _ e', L.le_cell h1 hok.slot]
        · rw [L.not_real hR, L.not_real hR]
  · have key : ∀ a ∈ Z.set i (t', l', f), ∃ b ∈ Z, b.1.ann = a.1.ann ∧ b.2.2 = a.2.2 := by
      intro a hain
      rcases hset a hain with rfl | haZ
      · exact ⟨_, hmem, ha.symm, rfl⟩
      · exact ⟨a, haZ, rfl, rfl⟩
    intro a haa b hbb e
    obtain ⟨a', ha', ea1, ea2⟩ := key a haa
    obtain ⟨b', hb', eb1, eb2⟩ := key b hbb
    rw [← ea1, ← eb1]
    exact h.share a' ha' b' hb' (by rw [ea2, eb2, e])
  · have key : ∀ a ∈ Z.set i (t', l', f), ∃ b ∈ Z, b.1.ann = a.1.ann ∧ b.2.2 = a.2.2 := by
      intro a hain
      rcases hset a hain with rfl | haZ
      · exact ⟨_, hmem, ha.symm, rfl⟩
      · exact ⟨a, haZ, rfl, rfl⟩
    intro hR a haa b hbb e
    obtain ⟨a', ha', ea1, ea2⟩ := key a haa
    obtain ⟨b', hb', eb1, eb2⟩ := key b hbb
    rw [← ea2, ← eb2]
    exact h.sep hR a' ha' b' hb' (by rw [ea1, eb1, e])
  · intro g hg
    by_cases e : g = f
    · subst e; simp
    · simp only [upd_other _ _ e]; exact h.above g hg

/-- What making subsets does to the cells of roots: the one of `r` gets the contents `c`. -/
def CellEffect (kec : Bytes → H256) [L : KindLaws kec α S] (w w' : L.W) (r : α)
    (c : Option H256) : Prop :=
  (∀ b, L.slot w b none → b ≠ r → K.cacheGet b (L.st w') = K.cacheGet b (L.st w)) ∧
    K.cacheGet r (L.st w') = c

/-- The cell of a handle gets new contents. -/
theorem Inv.fill {w' : L.W} {t : Trie α} {l : LNode} {f : Nat} {c : Option H256}
    (h : Inv kec w s p Z) (hmem : (t, l, f) ∈ Z) (hle : L.ole w w')
    (hc : CellEffect kec w w' t.ann c) :
    Inv kec w' ⟨L.st w', s.hs⟩ ⟨p.hs, upd p.filled f c, p.next⟩ Z := by
  refine ⟨rfl, h.hs, h.phs, ?_, h.share, h.sep, ?_⟩
  · intro a ha
    have hok := h.ok a ha
    refine ⟨hok.rep.omono hle, L.slot_mono hle hok.slot, hok.bound, hok.ext, hok.fam, ?_⟩
    by_cases e : a.2.2 = f
    · simp only [e, upd_same]
      rw [h.share a ha _ hmem e]
      exact hc.2
    · simp only [upd_other _ _ e]
      rw [← hok.cell]
      by_cases hR : L.real
      · exact hc.1 _ hok.slot fun e' => e (h.sep hR a ha _ hmem e')
      · rw [L.not_real hR, L.not_real hR]
  · intro g hg
    have : g ≠ f := by
      rintro rfl
      exact absurd (h.ok _ hmem).fam (Nat.not_lt.mpr hg)
    simp only [upd_other _ _ this]
    exact h.above g hg

/-! ### The calls -/

/-- Bind where the rest does not change the list result. -/
theorem Sim.bind_r {A B C : Type} {w : L.W} {m : Prog α A} {r : R B} {Q : L.W → A → B → Prop}
    {f : A → Prog α C} {Q' : L.W → C → B → Prop} (h : Sim kec w m r Q)
    (hf : ∀ w' a b, L.ole w w' → Q w' a b → Sim kec w' (f a) (.ok b) Q') :
    Sim kec w (m >>= f) r Q' := by
  cases r with
  | error e => exact Sim.bind_err h
  | ok b => exact Sim.bind_ok h fun w' a hle hq => hf w' a b hle hq

theorem sim_trieInsert {t : Trie α} {l : LNode} {k : Key} {v : ValOrHash} (ht : RepN kec w t l)
    (hb : l.Bound 127) (hk : k.length ≤ 127) :
    Sim kec w (trieInsert P t (ofList k) v : Prog α (Trie α)) (l.insert k v)
      (fun w' t' l' => RepN kec w' t' l' ∧ t'.ann = t.ann) := by
  refine Sim.bind_r (sim_insertRec (P := P) v l t w k ht (hb.mono (by omega)) (by omega)) ?_
  rintro w' a b hle ⟨t', rfl, hr⟩
  exact Sim.pure ⟨hr.1.setAnn _, ann_setAnn _ _⟩

theorem sim_trieExtend : ∀ (xs : List (Key × ValOrHash)) (t : Trie α) (l : LNode) (w : L.W),
    RepN kec w t l → l.Bound 127 → (∀ x ∈ xs, x.1.length ≤ 127) →
    Sim kec w (trieExtend P t (packEntries xs) : Prog α (Trie α)) (PSys.extendL l xs)
      (fun w' t' l' => RepN kec w' t' l' ∧ t'.ann = t.ann) := by
  intro xs
  induction xs with
  | nil => intro t l w ht _ _; exact Sim.pure ⟨ht, rfl⟩
  | cons x xs ih =>
    intro t l w ht hb hx
    obtain ⟨k, v⟩ := x
    simp only [packEntries, List.map_cons, trieExtend, PSys.extendL]
    refine Sim.bind ((sim_trieInsert (k := k) (v := v) ht hb (hx _ List.mem_cons_self)).with
      (p := fun l' => l.insert k v = .ok l') fun _ h => h) ?_
    rintro w' t' l' hle ⟨⟨hr, ha⟩, hins⟩
    refine (ih t' l' w' hr (LNode.insert_bound hb (hx _ List.mem_cons_self) hins)
      (fun y hy => hx y (List.mem_cons_of_mem _ hy))).mono ?_
    rintro w2 t2 l2 _ ⟨h1, h2⟩
    exact ⟨h1, h2.trans ha⟩

theorem extendL_bound : ∀ {xs : List (Key × ValOrHash)} {l r : LNode}, l.Bound 127 →
    (∀ x ∈ xs, x.1.length ≤ 127) → PSys.extendL l xs = .ok r → r.Bound 127 := by
  intro xs
  induction xs with
  | nil => intro l r hb _ h; simp [PSys.extendL] at h; rw [← h]; exact hb
  | cons x xs ih =>
    intro l r hb hx h
    simp only [PSys.extendL, R_bind_eq_ok] at h
    obtain ⟨l', hl', h⟩ := h
    exact ih (LNode.insert_bound hb (hx _ List.mem_cons_self) hl')
      (fun y hy => hx y (List.mem_cons_of_mem _ hy)) h

theorem extendL_extOK : ∀ {xs : List (Key × ValOrHash)} {l r : LNode}, l.ExtOK →
    PSys.extendL l xs = .ok r → r.ExtOK := by
  intro xs
  induction xs with
  | nil => intro l r hb h; simp [PSys.extendL] at h; rw [← h]; exact hb
  | cons x xs ih =>
    intro l r hb h
    simp only [PSys.extendL, R_bind_eq_ok] at h
    obtain ⟨l', hl', h⟩ := h
    exact ih (LNode.insert_extOK hb hl').1 h

theorem sim_trieDelete {t : Trie α} {l : LNode} {k : Key} (ht : RepN kec w t l)
    (hb : l.Bound 127) (hk : k.length ≤ 127) :
    Sim kec w (trieDelete P t (ofList k) : Prog α (Trie α × Option Bytes)) (l.deleteA k)
      (fun w' x y => RepN kec w' x.1 y.1 ∧ x.1.ann = t.ann ∧ x.2 = y.2) := by
  unfold trieDelete LNode.deleteA
  refine Sim.bind ((sim_deleteRec l t w k ht hb (by omega)).with
    (p := fun o => l.deleteRecA k = .ok o) fun _ h => h) ?_
  rintro w' r o hle ⟨hq, hdel⟩
  cases o with
  | none =>
    subst hq
    exact Sim.pure ⟨ht.mono hle, rfl, rfl⟩
  | some lx =>
    obtain ⟨l', x⟩ := lx
    obtain ⟨t', rfl, hr⟩ := hq
    refine Sim.bind (sim_tryCollapse hr (LNode.deleteRec_bound hb (LNode.deleteRecA_ok hdel))) ?_
    intro w2 t2 l2 _ hr2
    exact Sim.pure ⟨hr2.1.setAnn _, ann_setAnn _ _, rfl⟩

/-- The root hash: the cell of the root if it is filled. -/
theorem run_rootHash {t : Trie α} {l : LNode} (ht : RepN kec w t l) :
    ∃ x w', (t.rootHash P kec).run (L.st w) = .ok (x, L.st w') ∧ L.le w w' ∧
      x = (K.cacheGet t.ann (L.st w)).getD (l.rootHash kec) := by
  unfold Trie.rootHash hashProg
  simp only [Prog.run]
  cases hg : K.cacheGet t.ann (L.st w) with
  | some h => exact ⟨h, w, rfl, L.le_refl w, rfl⟩
  | none =>
    simp only [hashTrie, Prog.run_bind, M.bind_run]
    obtain ⟨x, w', h1, h2, rfl⟩ := (sim_encode (P := P) l t w ht).run
    rw [h1]
    exact ⟨_, w', rfl, h2, rfl⟩

theorem beq_iff {t u : Trie α} {l m : LNode} (ht : RepN kec w t l) (hu : RepN kec w u m) :
    t.beq u = true ↔ l = m := by
  induction ht generalizing u m with
  | empty a => cases hu <;> simp [Trie.beq]
  | hash a h => cases hu <;> simp [Trie.beq]
  | leaf a k v hk =>
    cases hu with
    | leaf b k' v' hk' =>
      simp only [Trie.beq, Bool.and_eq_true, beq_iff_eq, LNode.leaf.injEq]
      exact and_congr_left fun _ => ⟨fun h => ofList_inj hk hk' h, fun h => by rw [h]⟩
    | _ => simp [Trie.beq]
  | ext a k c lc hk h ho ih =>
    cases hu with
    | ext b k' c' lc' hk' h' ho' =>
      simp only [Trie.beq, Bool.and_eq_true, beq_iff_eq, LNode.ext.injEq, ih h']
      exact and_congr_left fun _ => ⟨fun h => ofList_inj hk hk' h, fun h => by rw [h]⟩
    | _ => simp [Trie.beq]
  | branch a cs lcs v h ho ih =>
    cases hu with
    | branch b cs' lcs' v' h' ho' =>
      simp only [Trie.beq, Bool.and_eq_true, beq_iff_eq, LNode.branch.injEq, List.all_eq_true,
        List.mem_finRange, true_implies]
      constructor
      · rintro ⟨h1, h2⟩
        exact ⟨funext fun i => (ih i (h' i)).1 (h2 i), h1⟩
      · rintro ⟨h1, h2⟩
        exact ⟨h2, fun i => (ih i (h' i)).2 (by rw [h1])⟩
    | _ => simp [Trie.beq]

/-! ### Subsets -/

theorem CellEffect.of_le {w' : L.W} {r : α} (h : L.le w w') (hr : L.slot w r none) :
    CellEffect kec w w' r (K.cacheGet r (L.st w)) := ⟨fun _ hb _ => L.le_cell h hb, L.le_cell h hr⟩

theorem CellEffect.trans {w1 w2 : L.W} {r : α} {c c' : Option H256} (hle : L.ole w w1)
    (h1 : CellEffect kec w w1 r c) (h2 : CellEffect kec w1 w2 r c') :
    CellEffect kec w w2 r c' :=
  ⟨fun b hb e => (h2.1 b (L.slot_mono hle hb) e).trans (h1.1 b hb e), h2.2⟩

/-- One subset. -/
theorem createSubset_root {C : Bool} (hC : C = true ↔ L.real) {l : LTracked} {t : Tracked α}
    (ht : RepT kec w t l) (ho : L.slot w t.u.ann none) :
    ∃ t' w', (createSubset P kec t).run (L.st w) = .ok (t', L.st w') ∧ L.ole w w' ∧
      FreshRoot kec w w' t' (l.subsetX C kec (K.cacheGet t.u.ann (L.st w))).1 ∧
      CellEffect kec w w' t.u.ann (l.subsetX C kec (K.cacheGet t.u.ann (L.st w))).2 := by
  unfold LTracked.subsetX
  cases hto : l.touched with
  | true =>
    obtain ⟨t', w', h1, h2, h3⟩ := (sim_createSubset_root (P := P) ht hto).run
    exact ⟨t', w', h1, L.ole_of_le h2, h3.freshRoot, .of_le h2 ho⟩
  | false =>
    obtain ⟨t', w1, w2, w', h1, h2, h3, h4, h5⟩ := createSubset_untouched (P := P) ht ho hto
    have hle : L.ole w w2 := L.ole_trans (L.ole_of_le h2) h3
    have same : L.st w2 = L.st w1 → CellEffect kec w w' t.u.ann (K.cacheGet t.u.ann (L.st w)) := by
      intro e
      have := CellEffect.of_le (kec := kec) h4 (L.slot_mono hle ho)
      rw [e, L.le_cell h2 ho] at this
      refine ⟨fun b hb _ => ?_, this.2⟩
      rw [L.le_cell h4 (L.slot_mono hle hb), e, L.le_cell h2 hb]
    refine ⟨t', w', h1, L.ole_trans hle (L.ole_of_le h4), ?_⟩
    revert h5
    cases hg : K.cacheGet t.u.ann (L.st w) with
    | some h =>
      rintro ⟨g1, g2⟩
      refine ⟨g2.freshRoot, ?_⟩
      have := same g1
      rw [hg] at this
      exact this
    | none =>
      rintro ⟨g1, g2⟩
      refine ⟨g1.freshRoot, ?_⟩
      simp only [Bool.false_eq_true, if_false]
      by_cases hR : L.real
      · rw [hC.2 hR, if_pos rfl]
        revert g2
        cases l.away kec with
        | none =>
          intro g2
          have := same g2
          rw [hg] at this
          exact this
        | some h =>
          intro g2
          have g2 : L.st w2 = K.cacheSet t.u.ann (some h) (L.st w1) := g2
          refine ⟨fun b hb e => ?_, ?_⟩
          · rw [L.le_cell h4 (L.slot_mono hle hb), g2, L.get_set_ne _ _ e, L.le_cell h2 hb]
          · rw [L.le_cell h4 (L.slot_mono hle ho), g2, L.get_set hR]
      · have : C = false := by
          cases C with
          | false => rfl
          | true => exact absurd (hC.1 rfl) hR
        subst this
        exact ⟨fun b _ _ => by rw [L.not_real hR, L.not_real hR], L.not_real hR _ _⟩

theorem FreshRoot.later {w0 w1 : L.W} {t : Trie α} {l : LNode} {r : α} {c : Option H256}
    (h : FreshRoot kec w0 w t l) (hr : L.slot w0 r none) (hle : L.ole w w1)
    (hc : CellEffect kec w w1 r c) : FreshRoot kec w0 w1 t l := by
  refine ⟨h.rep.omono hle, L.slot_mono hle h.slot, ?_, h.fresh⟩
  by_cases hR : L.real
  · rw [hc.1 _ h.slot (h.fresh hR _ _ hr)]; exact h.cell
  · exact L.not_real hR _ _

theorem FreshRoot.earlier {w0 w1 : L.W} {t : Trie α} {l : LNode} (hle : L.ole w0 w1)
    (h : FreshRoot kec w1 w t l) : FreshRoot kec w0 w t l :=
  ⟨h.rep, h.slot, h.cell, fun hR b o hs => h.fresh hR b o (L.slot_mono hle hs)⟩

/-- The new roots that several subsets make. -/
inductive FreshRoots (kec : Bytes → H256) [L : KindLaws kec α S] (w : L.W) :
    L.W → List (Trie α) → List LNode → Prop
  | nil (w0 : L.W) : FreshRoots kec w w0 [] []
  | cons (w0 w1 : L.W) (t : Trie α) (ts : List (Trie α)) (l : LNode) (ls : List LNode)
      (h : FreshRoot kec w0 w t l) (hle : L.ole w0 w1) (hs : L.slot w1 t.ann none)
      (ht : FreshRoots kec w w1 ts ls) :
      FreshRoots kec w w0 (t :: ts) (l :: ls)

theorem markRel_ok {w : L.W} {ks : List Key} {l : LTracked} {t : Tracked α}
    (ht : RepT kec w t l) (hb : l.node.Bound 127) (hk : ∀ k ∈ ks, k.length ≤ 127) :
    RRel (MarkRel w) (markAll P t (ks.map ofList)) (l.markAll P ks) :=
  markAll_sim ks l t ht (hb.mono (by omega)) (fun k hk' => by have := hk k hk'; omega)

theorem mark_u_all {t t' : Tracked α} {ks : List Nibbles}
    (h : markAll P t ks = .ok (.ok t')) : t'.u = t.u := by
  induction ks generalizing t with
  | nil => simp [markAll] at h; rw [h]
  | cons k ks ih =>
    simp only [markAll, R_bind_eq_ok] at h
    obtain ⟨r, hr, h⟩ := h
    cases r with
    | error e => simp at h
    | ok c => rw [ih h, mark_sim.mark_u hr]

theorem u_reset (t : Tracked α) : (resetTracked t).u = t.u := by
  cases t <;> rfl

theorem subsets_run {C : Bool} (hC : C = true ↔ L.real) :
    ∀ (kss : List (List Key)) (l : LTracked) (t : Tracked α) (w : L.W),
    RepT kec w t l → l.node.Bound 127 → L.slot w t.u.ann none →
    (∀ ks ∈ kss, ∀ k ∈ ks, k.length ≤ 127) →
    match PSys.subsetsX P C kec l (K.cacheGet t.u.ann (L.st w)) kss with
    | .error e => createTrieSubsetsFrom P kec t (kss.map fun ks => ks.map ofList) (L.st w) = .error e
    | .ok (r, c) => ∃ r' w', createTrieSubsetsFrom P kec t (kss.map fun ks => ks.map ofList)
          (L.st w) = .ok (r', L.st w') ∧ L.ole w w' ∧ CellEffect kec w w' t.u.ann c ∧
        match r with
        | .error k => r' = .error (.unexpectedKey (ofList k))
        | .ok ls => ∃ ts, r' = .ok ts ∧ FreshRoots kec w' w ts ls := by
  intro kss
  induction kss with
  | nil =>
    intro l t w _ _ ho _
    exact ⟨_, w, rfl, L.ole_of_le (L.le_refl w), .of_le (L.le_refl w) ho, _, rfl, .nil w⟩
  | cons ks kss ih =>
    intro l t w ht hb ho hk
    have hm := markRel_ok (P := P) ht hb (hk ks List.mem_cons_self)
    simp only [List.map_cons, createTrieSubsetsFrom, PSys.subsetsX, Prog.bind_run]
    cases hx : markAll P t (ks.map ofList) with
    | error e =>
      cases hy : l.markAll P ks with
      | error e' => rw [hx, hy] at hm; cases hm; rfl
      | ok y => rw [hx, hy] at hm; exact hm.elim
    | ok x =>
      cases hy : l.markAll P ks with
      | error e' => rw [hx, hy] at hm; exact hm.elim
      | ok y =>
        rw [hx, hy] at hm
        cases x with
        | error e =>
          cases y with
          | ok y => exact hm.elim
          | error k =>
            obtain ⟨rfl, -⟩ := hm
            exact ⟨_, w, rfl, L.ole_of_le (L.le_refl w), .of_le (L.le_refl w) ho, rfl⟩
        | ok t1 =>
          cases y with
          | error k => exact hm.elim
          | ok l1 =>
            have ht1 : RepT kec w t1 l1 := hm
            have hnode := LTracked.markAll_node P ks l l1 hy
            have hu : t1.u = t.u := mark_u_all hx
            obtain ⟨t', w1, h1, h2, h3, h4⟩ := createSubset_root (P := P) hC
              ht1 (by rw [hu]; exact ho)
            rw [hu] at h3 h4
            have hrec := ih l1.reset (resetTracked t1) w1 (ht1.omono h2).reset
              (by rw [LTracked.reset_node, hnode]; exact hb)
              (by rw [u_reset, hu]; exact L.slot_mono h2 ho)
              (fun ks' hks' => hk ks' (List.mem_cons_of_mem _ hks'))
            rw [u_reset, hu, h4.2] at hrec
            simp only [Prog.lift_run_ok, Prog.bind_run, h1, R_bind_ok]
            revert hrec
            cases PSys.subsetsX P C kec l1.reset
              (l1.subsetX C kec (K.cacheGet t.u.ann (L.st w))).2 kss with
            | error e =>
              intro hrec
              simp only [hrec]
              rfl
            | ok r =>
              obtain ⟨r, c⟩ := r
              rintro ⟨r', w', g1, g2, g3, g4⟩
              have hce : CellEffect kec w w' t.u.ann c := h4.trans h2 g3
              cases r with
              | error k =>
                subst g4
                simp only [g1]
                exact ⟨_, w', rfl, L.ole_trans h2 g2, hce, rfl⟩
              | ok ls =>
                obtain ⟨ts, rfl, hts⟩ := g4
                simp only [g1]
                refine ⟨_, w', rfl, L.ole_trans h2 g2, hce, _, rfl, ?_⟩
                exact .cons w w1 t' ts _ ls (h3.later ho g2 g3) h2 h3.slot hts

/-! ### All calls -/

theorem Inv.pushAll {w0 : L.W} : ∀ {ts : List (Trie α)} {ls : List LNode} {s : Sys α S} {p : PSys}
    {Z : List (Trie α × LNode × Nat)}, Inv kec w s p Z → (∀ a ∈ Z, ∃ o, L.slot w0 a.1.ann o) →
    FreshRoots kec w w0 ts ls → (∀ l ∈ ls, l.Bound 127 ∧ l.ExtOK) →
    ∃ Z', Inv kec w ⟨s.state, s.hs ++ ts⟩ (p.push ls) Z' := by
  intro ts ls s p Z h hw hf hl
  induction hf generalizing s p Z with
  | nil w0 => exact ⟨Z, by simpa [PSys.push] using h⟩
  | cons w0 w1 t ts l ls h1 hle hs _ ih =>
    have hb := hl l List.mem_cons_self
    have := ih (h.push1 hw h1 hb.1 hb.2) (by
      intro a ha
      rw [List.mem_append, List.mem_singleton] at ha
      rcases ha with ha | rfl
      · obtain ⟨o, ho⟩ := hw a ha
        exact ⟨o, L.slot_mono hle ho⟩
      · exact ⟨none, hs⟩) (fun l' hl' => hl l' (List.mem_cons_of_mem _ hl'))
    simpa [PSys.push] using this

theorem subsetX_ok {C : Bool} {cell : Option H256} {t : LTracked} (hb : t.node.Bound 127)
    (he : t.node.ExtOK) :
    (t.subsetX C kec cell).1.Bound 127 ∧ (t.subsetX C kec cell).1.ExtOK := by
  have := And.intro (LTracked.subset_bound (kec := kec) hb) (LTracked.subset_extOK (kec := kec) he)
  unfold LTracked.subsetX
  split
  · exact this
  · split
    · exact ⟨trivial, trivial⟩
    · exact this

theorem subsetsX_ok {C : Bool} : ∀ {kss : List (List Key)} {cell cell' : Option H256}
    {l : LTracked} {ls : List LNode}, l.node.Bound 127 → l.node.ExtOK →
    PSys.subsetsX P C kec l cell kss = .ok (.ok ls, cell') → ∀ x ∈ ls, x.Bound 127 ∧ x.ExtOK := by
  intro kss
  induction kss with
  | nil => intro cell cell' l ls _ _ h; cases h; simp
  | cons ks kss ih =>
    intro cell cell' l ls hb he h
    simp only [PSys.subsetsX, R_bind_eq_ok] at h
    obtain ⟨r, hr, h⟩ := h
    cases r with
    | error e => simp at h
    | ok l1 =>
      have hnode := LTracked.markAll_node P ks l l1 hr
      simp only [R_bind_eq_ok] at h
      obtain ⟨⟨r', c'⟩, hr', h⟩ := h
      cases r' with
      | error e => simp at h
      | ok rs =>
        simp at h
        obtain ⟨rfl, rfl⟩ := h
        intro x hx
        rw [List.mem_cons] at hx
        rcases hx with rfl | hx
        · exact subsetX_ok (by rw [hnode]; exact hb) (by rw [hnode]; exact he)
        · exact ih (by rw [LTracked.reset_node, hnode]; exact hb)
            (by rw [LTracked.reset_node, hnode]; exact he) hr' x hx

/-- A handle of the model and of the list program. -/
theorem Inv.on {P' : R (Sys α S × Obs) → R (PSys × Obs) → Prop} (h : Inv kec w s p Z) (i : Nat)
    {f : Trie α → R (Sys α S × Obs)} {g : LNode × Nat → R (PSys × Obs)}
    (hnone : P' (.ok (s, .noHandle)) (.ok (p, .noHandle)))
    (hsome : ∀ t l fm, Z[i]? = some (t, l, fm) → P' (f t) (g (l, fm))) :
    P' (s.on i f) (p.on i g) := by
  unfold Sys.on PSys.on
  rw [h.hs, h.phs, List.getElem?_map, List.getElem?_map]
  cases e : Z[i]? with
  | none => exact hnone
  | some a => exact hsome a.1 a.2.1 a.2.2 e

/-- The outcome of a call on the model, given the outcome on list-keyed tries. -/
def StepRel (kec : Bytes → H256) [L : KindLaws kec α S] (w : L.W) (x : R (Sys α S × Obs))
    (y : R (PSys × Obs)) : Prop :=
  match y with
  | .error e => x = .error e
  | .ok (p', o) => ∃ s' w' Z', x = .ok (s', o) ∧ L.ole w w' ∧ Inv kec w' s' p' Z'

/-- Mutating calls. -/
theorem mutate_run {A : Type} {B : Type} {i : Nat} {t : Trie α} {l : LNode} {fm : Nat}
    (h : Inv kec w s p Z) (hi : Z[i]? = some (t, l, fm))
    {m : Prog α A} {r : R B} {ft : A → Trie α} {fl : B → LNode} {oa : A → Obs} {ob : B → Obs}
    (hsim : Sim kec w m r (fun w' x y => RepN kec w' (ft x) (fl y) ∧ (ft x).ann = t.ann ∧
      oa x = ob y))
    (hok : ∀ b, r = .ok b → (fl b).Bound 127 ∧ (fl b).ExtOK) :
    StepRel kec w
      (do
        let (x, st) ← (do let x ← m; setHash (ft x) none; return x : Prog α A).run s.state
        return (⟨st, s.hs.set i (ft x)⟩, oa x))
      (do
        let y ← r
        return (⟨p.hs.set i (fl y, fm), upd p.filled fm none, p.next⟩, ob y)) := by
  rw [h.state]
  cases r with
  | error e =>
    have hsim : m.run (L.st w) = .error e := hsim.run
    simp only [Prog.bind_run, hsim, R_bind_err, StepRel]
  | ok b =>
    obtain ⟨x, w1, h1, h2, h3, h4, h5⟩ := hsim.run
    have hslot := (h.ok _ (List.mem_of_getElem? hi)).slot
    obtain ⟨w2, g1, g2⟩ := L.set_root none (L.slot_mono (L.ole_of_le h2) hslot)
    have := h.mutate hi h2 g1 g2 h3 h4 (hok b rfl).1 (hok b rfl).2
    refine ⟨_, w2, _, ?_, L.ole_trans (L.ole_of_le h2) g1, this⟩
    simp only [Prog.bind_run, h1, setHash, h4, ← h5, g2, Prog.run]
    rfl

theorem exec_refine {C : Bool} (hC : C = true ↔ L.real) {c : Cmd} (h : Inv kec w s p Z)
    (hs : c.Short) : StepRel kec w (s.exec P kec c) (p.exec P C kec c) := by
  have hnone : StepRel kec w (.ok (s, .noHandle)) (.ok (p, .noHandle)) :=
    ⟨s, w, Z, rfl, ole_refl w, h⟩
  have hw : ∀ a ∈ Z, ∃ o, L.slot w a.1.ann o := fun a ha => ⟨_, (h.ok a ha).slot⟩
  cases c with
  | new =>
    obtain ⟨t, w', h1, h2, h3⟩ := (sim_new (kec := kec) (w := w) (fun a => .empty a) .empty true
      (fun _ => rfl) (fun _ _ _ => .empty _)).run
    have := (h.step_le h2).push1 hw h3.freshRoot trivial trivial
    refine ⟨_, w', _, ?_, L.ole_of_le h2, this⟩
    simp only [Sys.exec, h.state]
    rw [show (newEmpty : Prog α (Trie α)).run (L.st w) = .ok (t, L.st w') from h1]
    rfl
  | fromIter xs =>
    obtain ⟨t, w1, h1, h2, h3⟩ := (sim_new (kec := kec) (w := w) (fun a => .empty a) .empty true
      (fun _ => rfl) (fun _ _ _ => .empty _)).run
    have hr := h3.freshRoot
    have hsim := (sim_trieExtend (P := P) xs t .empty w1 hr.rep trivial hs).run
    have hb := fun r => extendL_bound (r := r) (l := .empty) (xs := xs) trivial hs
    have he := fun r => extendL_extOK (r := r) (l := .empty) (xs := xs) trivial
    simp only [Sys.exec, EthTrie.fromIter, PSys.exec, h.state, Prog.bind_run]
    rw [show (newEmpty : Prog α (Trie α)).run (L.st w) = .ok (t, L.st w1) from h1]
    simp only [Trie.extend, Prog.bind_run]
    revert hsim hb he
    cases PSys.extendL .empty xs with
    | error e =>
      intro hsim _ _
      rw [show trieExtend P t (packEntries xs) (L.st w1) = .error e from hsim]
      rfl
    | ok l =>
      rintro ⟨t', w2, g1, g2, g3, g4⟩ hb he
      obtain ⟨w3, g5, g6⟩ := L.set_root none (L.slot_mono (L.ole_of_le g2) hr.slot)
      have h12 := L.le_trans h2 g2
      have hole : L.ole w w3 := L.ole_trans (L.ole_of_le h12) g5
      have hfr : FreshRoot kec w w3 t' l := by
        refine ⟨g3.omono g5, ?_, ?_, ?_⟩
        · rw [g4]; exact L.slot_mono g5 (L.slot_mono (L.ole_of_le g2) hr.slot)
        · rw [g4, g6]
          exact L.get_set_none _ _
        · rw [g4]; exact hr.fresh
      have hinv : Inv kec w3 ⟨L.st w3, s.hs⟩ p Z := by
        refine h.step hole fun a ha => ?_
        by_cases hR : L.real
        · rw [g6, L.get_set_ne _ _ fun e => hr.fresh hR _ _ (h.ok a ha).slot e.symm]
          exact L.le_cell h12 (h.ok a ha).slot
        · rw [L.not_real hR, L.not_real hR]
      refine ⟨_, w3, _, ?_, hole, hinv.push1 hw hfr (hb _ rfl) (he _ rfl)⟩
      simp only [g1, setHash, g4, ← g6, Prog.run]
      rfl
  | clone i =>
    refine h.on (P' := StepRel kec w) i hnone ?_
    intro t l fm hi
    have hmem := List.mem_of_getElem? hi
    refine ⟨_, w, Z ++ [(t, l, fm)], rfl, ole_refl w, h.state, by simp [h.hs], by simp [h.phs],
      ?_, ?_, ?_, h.above⟩
    · intro a ha
      rw [List.mem_append, List.mem_singleton] at ha
      rcases ha with ha | rfl
      · exact h.ok a ha
      · exact h.ok _ hmem
    · have key : ∀ a ∈ Z ++ [(t, l, fm)], a ∈ Z := by
        intro a ha
        rw [List.mem_append, List.mem_singleton] at ha
        rcases ha with ha | rfl
        · exact ha
        · exact hmem
      exact fun a ha b hb => h.share a (key a ha) b (key b hb)
    · have key : ∀ a ∈ Z ++ [(t, l, fm)], a ∈ Z := by
        intro a ha
        rw [List.mem_append, List.mem_singleton] at ha
        rcases ha with ha | rfl
        · exact ha
        · exact hmem
      exact fun hR a ha b hb => h.sep hR a (key a ha) b (key b hb)
  | insert i k v =>
    refine h.on (P' := StepRel kec w) i hnone ?_
    intro t l fm hi
    have hok := h.ok _ (List.mem_of_getElem? hi)
    exact mutate_run h hi (ft := id) (fl := id) (oa := fun _ => .unit) (ob := fun _ => .unit)
      ((sim_trieInsert hok.rep hok.bound hs).mono fun _ _ _ _ hq => ⟨hq.1, hq.2, rfl⟩)
      (fun b hb => ⟨LNode.insert_bound hok.bound hs hb, (LNode.insert_extOK hok.ext hb).1⟩)
  | extend i xs =>
    refine h.on (P' := StepRel kec w) i hnone ?_
    intro t l fm hi
    have hok := h.ok _ (List.mem_of_getElem? hi)
    exact mutate_run h hi (ft := id) (fl := id) (oa := fun _ => .unit) (ob := fun _ => .unit)
      ((sim_trieExtend xs t l w hok.rep hok.bound hs).mono fun _ _ _ _ hq => ⟨hq.1, hq.2, rfl⟩)
      (fun b hb => ⟨extendL_bound hok.bound hs hb, extendL_extOK hok.ext hb⟩)
  | delete i k =>
    refine h.on (P' := StepRel kec w) i hnone ?_
    intro t l fm hi
    have hok := h.ok _ (List.mem_of_getElem? hi)
    exact mutate_run h hi (ft := Prod.fst) (fl := Prod.fst) (oa := fun x => .val x.2)
      (ob := fun x => .val x.2)
      ((sim_trieDelete hok.rep hok.bound hs).mono fun _ _ _ _ hq => ⟨hq.1, hq.2.1, by rw [hq.2.2]⟩)
      (fun b hb => ⟨LNode.delete_bound hok.bound (LNode.deleteA_ok hb), LNode.delete_extOK hok.ext (LNode.deleteA_ok hb)⟩)
  | get i k =>
    refine h.on (P' := StepRel kec w) i hnone ?_
    intro t l fm hi
    have hok := h.ok _ (List.mem_of_getElem? hi)
    have hs : k.length ≤ 127 := hs
    have hg := getIntern_eq (P := P) l t w k hok.rep (hok.bound.mono (by omega)) (by omega)
    simp only [Trie.get, hg]
    cases l.get P k with
    | error e => rfl
    | ok o => exact ⟨s, w, Z, rfl, ole_refl w, h⟩
  | hash i =>
    refine h.on (P' := StepRel kec w) i hnone ?_
    intro t l fm hi
    have hok := h.ok _ (List.mem_of_getElem? hi)
    obtain ⟨x, w', h1, h2, rfl⟩ := run_rootHash (P := P) hok.rep
    refine ⟨_, w', Z, ?_, L.ole_of_le h2, h.step_le h2⟩
    rw [h.state, h1, hok.cell]
    rfl
  | items i =>
    refine h.on (P' := StepRel kec w) i hnone ?_
    intro t l fm hi
    have hok := h.ok _ (List.mem_of_getElem? hi)
    rw [items_exact hok.rep hok.ext]
    cases l.itemsA with
    | error e => rfl
    | ok x => exact ⟨s, w, Z, rfl, ole_refl w, h⟩
  | eq i j =>
    refine h.on (P' := StepRel kec w) i hnone ?_
    intro t l fm hi
    refine h.on (P' := StepRel kec w) j hnone ?_
    intro u m fm' hj
    refine ⟨s, w, Z, ?_, ole_refl w, h⟩
    have := beq_iff (h.ok _ (List.mem_of_getElem? hi)).rep (h.ok _ (List.mem_of_getElem? hj)).rep
    congr 4
    rw [Bool.eq_iff_iff, this]
    simp
  | subset i ks =>
    refine h.on (P' := StepRel kec w) i hnone ?_
    intro t l fm hi
    have hmem := List.mem_of_getElem? hi
    have hok := h.ok _ hmem
    have hs : ∀ k ∈ ks, k.length ≤ 127 := hs
    have htr := hok.rep.tracked
    have hm := markRel_ok (P := P) htr (by rw [LTracked.node_new]; exact hok.bound) hs
    simp only [createTrieSubset, Prog.bind_run, h.state]
    cases hx : markAll P (Tracked.new t) (ks.map ofList) with
    | error e =>
      cases hy : (LTracked.new l).markAll P ks with
      | error e' => rw [hx, hy] at hm; cases hm; rfl
      | ok y => rw [hx, hy] at hm; exact hm.elim
    | ok x =>
      cases hy : (LTracked.new l).markAll P ks with
      | error e' => rw [hx, hy] at hm; exact hm.elim
      | ok y =>
        rw [hx, hy] at hm
        cases x with
        | error e =>
          cases y with
          | ok y => exact hm.elim
          | error k =>
            obtain ⟨rfl, -⟩ := hm
            exact ⟨_, w, Z, rfl, ole_refl w, h.step_le (L.le_refl w)⟩
        | ok t1 =>
          cases y with
          | error k => exact hm.elim
          | ok l1 =>
            have ht1 : RepT kec w t1 l1 := hm
            have hnode : l1.node = l :=
              (LTracked.markAll_node P ks _ l1 hy).trans (LTracked.node_new l)
            have hu : t1.u = t := (mark_u_all hx).trans (u_new t)
            obtain ⟨t', w1, h1, h2, h3, h4⟩ := createSubset_root (P := P) hC ht1
              (by rw [hu]; exact hok.slot)
            rw [hu, hok.cell] at h3 h4
            have hb1 := subsetX_ok (kec := kec) (C := C) (cell := p.filled fm) (t := l1)
              (by rw [hnode]; exact hok.bound) (by rw [hnode]; exact hok.ext)
            simp only [Prog.lift_run_ok, Prog.bind_run, h1, R_bind_ok]
            exact ⟨_, w1, _, rfl, h2, (h.fill hmem h2 h4).push1 hw h3 hb1.1 hb1.2⟩
  | subsets i kss =>
    refine h.on (P' := StepRel kec w) i hnone ?_
    intro t l fm hi
    have hmem := List.mem_of_getElem? hi
    have hok := h.ok _ hmem
    have htr := hok.rep.tracked
    have hrun := subsets_run (P := P) hC kss (LTracked.new l) (Tracked.new t) w htr
      (by rw [LTracked.node_new]; exact hok.bound) (by rw [u_new]; exact hok.slot) hs
    have hsub := fun ls c => subsetsX_ok (P := P) (C := C) (kec := kec) (kss := kss)
      (cell := p.filled fm) (cell' := c) (l := LTracked.new l)
      (ls := ls) (by rw [LTracked.node_new]; exact hok.bound) (by rw [LTracked.node_new]; exact hok.ext)
    rw [u_new, hok.cell] at hrun
    simp only [createTrieSubsets, h.state]
    revert hrun hsub
    cases PSys.subsetsX P C kec (LTracked.new l) (p.filled fm) kss with
    | error e =>
      intro hrun _
      rw [hrun]; rfl
    | ok r =>
      obtain ⟨r, c⟩ := r
      rintro ⟨r', w', h1, h2, h3, h4⟩ hsub
      have hinv := h.fill hmem h2 h3
      rw [h1]
      cases r with
      | error k =>
        subst h4
        exact ⟨_, w', Z, rfl, h2, hinv⟩
      | ok ls =>
        obtain ⟨ts, rfl, hts⟩ := h4
        obtain ⟨Z', hZ'⟩ := hinv.pushAll hw hts (hsub ls c rfl)
        exact ⟨_, w', Z', rfl, h2, hZ'⟩

theorem run_refine {C : Bool} (hC : C = true ↔ L.real) : ∀ (cs : List Cmd) (w : L.W) (s : Sys α S) (p : PSys)
    (Z : List (Trie α × LNode × Nat)), Inv kec w s p Z → (∀ c ∈ cs, c.Short) →
    match p.run P C kec cs with
    | .error e => s.run P kec cs = .error e
    | .ok (p', os) => ∃ s' w' Z', s.run P kec cs = .ok (s', os) ∧ Inv kec w' s' p' Z' := by
  intro cs
  induction cs with
  | nil => intro w s p Z h _; exact ⟨s, w, Z, rfl, h⟩
  | cons c cs ih =>
    intro w s p Z h hc
    have h1 := exec_refine (P := P) hC h (hc c List.mem_cons_self)
    simp only [PSys.run, Sys.run]
    revert h1
    cases p.exec P C kec c with
    | error e =>
      intro h1
      rw [show s.exec P kec c = .error e from h1]
      rfl
    | ok po =>
      obtain ⟨p', o⟩ := po
      rintro ⟨s', w', Z', g1, g2, g3⟩
      rw [g1]
      simp only [R_bind_ok]
      have := ih w' s' p' Z' g3 (fun c' hc' => hc c' (List.mem_cons_of_mem _ hc'))
      revert this
      cases p'.run P C kec cs with
      | error e =>
        intro h3
        rw [h3]
        rfl
      | ok pos =>
        obtain ⟨p'', os⟩ := pos
        rintro ⟨s'', w'', Z'', g4, g5⟩
        rw [g4]
        exact ⟨s'', w'', Z'', rfl, g5⟩

end

/-- Whether there are cache cells. -/
def Kind.cells : Kind → Bool
  | .standard => false
  | .hashed => true

theorem Kind.cells_real (kec : Bytes → H256) (K : Kind) :
    K.cells = true ↔ (Kind.laws kec K).real := by
  cases K with
  | standard => exact ⟨(fun h => by cases h), False.elim⟩
  | hashed => exact ⟨(fun _ => trivial), (fun _ => rfl)⟩

/-- A program of type `K` does what the program on list-keyed tries does. -/
theorem Kind.run_refine (K : Kind) (P : Profile) (kec : Bytes → H256) (cs : List Cmd)
    (hc : ∀ c ∈ cs, c.Short) :
    match PSys.start.run P K.cells kec cs with
    | .error e => K.run P kec cs = .error e
    | .ok (p', os) => ∃ s' w' Z', K.run P kec cs = .ok (s', os) ∧
        Inv (L := Kind.laws kec K) kec w' s' p' Z' :=
  EthTrie.run_refine (L := Kind.laws kec K) (K.cells_real kec) cs (K.initW kec) K.start PSys.start []
    ⟨(Kind.st_initW kec K).symm, rfl, rfl, by simp, by simp, by simp, fun _ _ => rfl⟩ hc

end EthTrie
