import Verif.Conc.Rely

/-!
# Every call does what it does on list-keyed tries, whatever the other threads do
-/

namespace EthTrie

open Nibbles Spec

/-- The result of a call on list-keyed tries. -/
structure PReply where
  upd : Option (Nat × LNode)
  new : List LNode
  obs : Obs

/-- The tries after a call. -/
def PReply.apply (r : PReply) (ls : List LNode) : List LNode :=
  (match r.upd with
    | none => ls
    | some (i, t) => ls.set i t) ++ r.new

/-- Call something on a list-keyed trie. -/
def onPlainR (ls : List LNode) (i : Nat) (f : LNode → R PReply) : R PReply :=
  match ls[i]? with
  | none => .ok ⟨none, [], .noHandle⟩
  | some t => f t

open Classical in
/-- The result of a call on list-keyed tries. -/
noncomputable def plainReply (P : Profile) (kec : Bytes → H256) (ls : List LNode) : Cmd → R PReply
  | .new => .ok ⟨none, [.empty], .unit⟩
  | .fromIter xs => do return ⟨none, [← PSys.extendL .empty xs], .unit⟩
  | .clone i => onPlainR ls i fun l => .ok ⟨none, [l], .unit⟩
  | .insert i k v => onPlainR ls i fun l => do return ⟨some (i, ← l.insert k v), [], .unit⟩
  | .extend i xs => onPlainR ls i fun l => do return ⟨some (i, ← PSys.extendL l xs), [], .unit⟩
  | .delete i k => onPlainR ls i fun l => do
    let r ← l.deleteA k
    return ⟨some (i, r.1), [], .val r.2⟩
  | .get i k => onPlainR ls i fun l => do return ⟨none, [], .val (← l.get P k)⟩
  | .hash i => onPlainR ls i fun l => .ok ⟨none, [], .root (l.rootHash kec)⟩
  | .items i => onPlainR ls i fun l => do
    return ⟨none, [], .items (packItems (← l.itemsA))⟩
  | .eq i j => onPlainR ls i fun l => onPlainR ls j fun l' =>
    .ok ⟨none, [], .bool (decide (l = l'))⟩
  | .subset i ks => onPlainR ls i fun l => do
    match ← (LTracked.new l).markAll P ks with
    | .error k => return ⟨none, [], .err (.unexpectedKey (ofList k))⟩
    | .ok tr => return ⟨none, [tr.subset kec], .unit⟩
  | .subsets i kss => onPlainR ls i fun l => do
    match ← PSys.subsetsL P kec (LTracked.new l) kss with
    | .error k => return ⟨none, [], .err (.unexpectedKey (ofList k))⟩
    | .ok rs => return ⟨none, rs, .unit⟩

theorem onPlain_eq {ls : List LNode} {i : Nat} {f : LNode → R (List LNode × Obs)}
    {g : LNode → R PReply}
    (h : ∀ l, ls[i]? = some l → f l = (g l).map fun r => (r.apply ls, r.obs)) :
    onPlain ls i f = (onPlainR ls i g).map fun r => (r.apply ls, r.obs) := by
  unfold onPlain onPlainR
  cases e : ls[i]? with
  | none => simp [Except.map, PReply.apply]
  | some l => exact h l e

theorem plainExec_eq (P : Profile) (kec : Bytes → H256) (ls : List LNode) (c : Cmd) :
    plainExec P kec ls c = (plainReply P kec ls c).map fun r => (r.apply ls, r.obs) := by
  cases c with
  | new => rfl
  | fromIter xs =>
    simp only [plainExec, plainReply]
    cases PSys.extendL .empty xs <;> rfl
  | clone i => exact onPlain_eq fun l _ => rfl
  | insert i k v =>
    refine onPlain_eq fun l _ => ?_
    cases l.insert k v with
    | error e => rfl
    | ok l => simp [Except.map, PReply.apply]
  | extend i xs =>
    refine onPlain_eq fun l _ => ?_
    cases PSys.extendL l xs with
    | error e => rfl
    | ok l => simp [Except.map, PReply.apply]
  | delete i k =>
    refine onPlain_eq fun l _ => ?_
    cases l.deleteA k with
    | error e => rfl
    | ok l => simp [Except.map, PReply.apply]
  | get i k =>
    refine onPlain_eq fun l _ => ?_
    cases l.get P k with
    | error e => rfl
    | ok l => simp [Except.map, PReply.apply]
  | hash i => exact onPlain_eq fun l _ => by simp [Except.map, PReply.apply]
  | items i =>
    refine onPlain_eq fun l _ => ?_
    cases l.itemsA with
    | error e => rfl
    | ok l => simp [Except.map, PReply.apply]
  | eq i j =>
    exact onPlain_eq fun l _ => onPlain_eq fun l' _ => by simp [Except.map, PReply.apply]
  | subset i ks =>
    refine onPlain_eq fun l _ => ?_
    cases (LTracked.new l).markAll P ks with
    | error e => rfl
    | ok r => cases r <;> simp [Except.map, PReply.apply]
  | subsets i kss =>
    refine onPlain_eq fun l _ => ?_
    cases PSys.subsetsL P kec (LTracked.new l) kss with
    | error e => rfl
    | ok r => cases r <;> simp [Except.map, PReply.apply]

/-- The result of a call depends only on the tries it uses. -/
theorem plainReply_congr {P : Profile} {kec : Bytes → H256} {ls ls' : List LNode} {c : Cmd}
    (h : ∀ i ∈ c.uses, ls'[i]? = ls[i]?) : plainReply P kec ls' c = plainReply P kec ls c := by
  cases c with
  | new => rfl
  | fromIter xs => rfl
  | eq i j =>
    simp only [Cmd.uses, List.mem_cons, List.not_mem_nil, or_false, forall_eq_or_imp,
      forall_eq] at h
    simp only [plainReply, onPlainR, h.1, h.2]
  | _ =>
    simp only [Cmd.uses, List.mem_cons, List.not_mem_nil, or_false, forall_eq] at h
    simp only [plainReply, onPlainR, h]

/-- Only the mutated trie is replaced. -/
theorem plainReply_upd {P : Profile} {kec : Bytes → H256} {ls : List LNode} {c : Cmd} {r : PReply}
    {i : Nat} {l : LNode} (h : plainReply P kec ls c = .ok r) (hu : r.upd = some (i, l)) :
    c.mutates = some i := by
  cases c with
  | new => cases h; cases hu
  | fromIter xs =>
    simp only [plainReply, R_bind_eq_ok] at h
    obtain ⟨_, _, h⟩ := h
    cases h; cases hu
  | clone j =>
    simp only [plainReply, onPlainR] at h
    cases e : ls[j]? <;> rw [e] at h <;> cases h <;> cases hu
  | insert j k v =>
    simp only [plainReply, onPlainR] at h
    cases e : ls[j]? with
    | none => rw [e] at h; cases h; cases hu
    | some l =>
      simp only [e, R_bind_eq_ok] at h
      obtain ⟨_, _, h⟩ := h
      cases h; cases hu; rfl
  | extend j xs =>
    simp only [plainReply, onPlainR] at h
    cases e : ls[j]? with
    | none => rw [e] at h; cases h; cases hu
    | some l =>
      simp only [e, R_bind_eq_ok] at h
      obtain ⟨_, _, h⟩ := h
      cases h; cases hu; rfl
  | delete j k =>
    simp only [plainReply, onPlainR] at h
    cases e : ls[j]? with
    | none => rw [e] at h; cases h; cases hu
    | some l =>
      simp only [e, R_bind_eq_ok] at h
      obtain ⟨_, _, h⟩ := h
      cases h; cases hu; rfl
  | get j k =>
    simp only [plainReply, onPlainR] at h
    cases e : ls[j]? with
    | none => rw [e] at h; cases h; cases hu
    | some l =>
      simp only [e, R_bind_eq_ok] at h
      obtain ⟨_, _, h⟩ := h
      cases h; cases hu
  | hash j =>
    simp only [plainReply, onPlainR] at h
    cases e : ls[j]? <;> rw [e] at h <;> cases h <;> cases hu
  | items j =>
    simp only [plainReply, onPlainR] at h
    cases e : ls[j]? with
    | none => rw [e] at h; cases h; cases hu
    | some l =>
      simp only [e, R_bind_eq_ok] at h
      obtain ⟨_, _, h⟩ := h
      cases h; cases hu
  | eq j j' =>
    simp only [plainReply, onPlainR] at h
    cases e : ls[j]? with
    | none => rw [e] at h; cases h; cases hu
    | some l => cases e' : ls[j']? <;> simp only [e, e'] at h <;> cases h <;> cases hu
  | subset j ks =>
    simp only [plainReply, onPlainR] at h
    cases e : ls[j]? with
    | none => rw [e] at h; cases h; cases hu
    | some l =>
      simp only [e, R_bind_eq_ok] at h
      obtain ⟨x, _, h⟩ := h
      cases x <;> cases h <;> cases hu
  | subsets j kss =>
    simp only [plainReply, onPlainR] at h
    cases e : ls[j]? with
    | none => rw [e] at h; cases h; cases hu
    | some l =>
      simp only [e, R_bind_eq_ok] at h
      obtain ⟨x, _, h⟩ := h
      cases x <;> cases h <;> cases hu

section
variable {kec : Bytes → H256} {α S : Type} [K : TrieKind α S] [L : KindLaws kec α S]
variable {P : Profile} {A B : Type}

/-- A root that is not a handle yet. -/
structure RootOk (kec : Bytes → H256) [L : KindLaws kec α S] (w : L.W) (t : Trie α) (l : LNode) :
    Prop where
  rep : RepN kec w t l
  slot : L.slot w t.ann none
  bound : l.Bound 127
  ext : l.ExtOK

theorem RootOk.mono {w w' : L.W} {t : Trie α} {l : LNode} (h : RootOk kec w t l)
    (hle : L.ole w w') : RootOk kec w' t l :=
  ⟨h.rep.mono hle, L.slot_mono hle h.slot, h.bound, h.ext⟩

/-- The replaced handle. -/
def UpdRel (kec : Bytes → H256) [L : KindLaws kec α S] (O : Borrow α) (w : L.W) :
    Option (Nat × Trie α) → Option (Nat × LNode) → Prop
  | none, none => True
  | some (i, t), some (j, l) => i = j ∧ RootOk kec w t l ∧ O.mu ∧ (∃ l0, O.own = [(t.ann, l0)]) ∧
    K.cacheGet t.ann (L.st w) = none
  | _, _ => False

/-- The results of a call correspond. -/
structure ReplyRel (kec : Bytes → H256) [L : KindLaws kec α S] (O : Borrow α) (w : L.W)
    (x : Reply α) (y : PReply) : Prop where
  obs : x.obs = y.obs
  new : List.Forall₂ (RootOk kec w) x.new y.new
  upd : UpdRel kec O w x.upd y.upd

theorem ReplyRel.later {O : Borrow α} {w w' : L.W} {x : Reply α} {y : PReply}
    (hr : Rely kec O w w') (h : ReplyRel kec O w x y) : ReplyRel kec O w' x y := by
  refine ⟨h.obs, h.new.imp fun _ _ h => h.mono hr.ole, ?_⟩
  have hu := h.upd
  revert hu
  rcases x.upd with _ | ⟨i, t⟩ <;> rcases y.upd with _ | ⟨j, l⟩
  · exact id
  · exact id
  · exact id
  · rintro ⟨h1, h2, h3, ⟨l0, h4⟩, h5⟩
    exact ⟨h1, h2.mono hr.ole, h3, ⟨l0, h4⟩, hr.none h3 (t.ann, l0) (by rw [h4]; simp) h5⟩

/-! ### Subsets -/

theorem rg_hashAway {O : Borrow α} {w : L.W} {l : LTracked} {t : Tracked α} (ht : RepT kec w t l)
    (ho : L.slot w t.u.ann none) (hown : (t.u.ann, l.node) ∈ O.own) (hmu : ¬ O.mu)
    (hE : l.touched = true ∨ O.E ∨ ¬ L.real) :
    RG kec O w (hashAway P kec t) (.ok (l.away kec)) (fun _ x y => x = y) := by
  unfold hashAway LTracked.away
  rw [ht.touched]
  cases hto : l.touched with
  | true => exact ⟨_, rfl, rfl⟩
  | false =>
    have hE : O.E ∨ ¬ L.real := by simpa [hto] using hE
    simp only [Bool.not_false, if_true, Bool.false_eq_true, if_false]
    refine RG.bind_ok (b := l.node.enc kec) (Q := fun _ x y => x = y) ?_ ?_
    · intro w' hr
      have ho' := L.slot_mono hr.ole ho
      rcases hr.ok _ hown with hn | ⟨_, h, hs, he⟩
      · rw [hn]
        refine RG.bind_ok (.of_sim (sim_encode (P := P) _ _ w' (ht.repN.mono hr.ole))) ?_
        rintro w2 x h2 rfl
        cases he : l.node.enc kec with
        | raw b => exact ⟨_, rfl, rfl⟩
        | hashed h =>
          intro w3 hr3
          obtain ⟨w4, h4, h5⟩ := L.set_root (some h) (L.slot_mono (L.ole_trans h2 hr3.ole) ho')
          exact ⟨w4, .fill h4 h5 hmu hE hown he, h5, _, rfl, rfl⟩
      · rw [hs, he]
        exact ⟨_, rfl, rfl⟩
    · rintro w1 x h1 rfl
      cases l.node.enc kec with
      | raw b => exact ⟨_, rfl, rfl⟩
      | hashed h => exact ⟨_, rfl, rfl⟩

theorem rg_createSubset {O : Borrow α} {w : L.W} {l : LTracked} {t : Tracked α}
    (ht : RepT kec w t l) (ho : L.slot w t.u.ann none) (hown : (t.u.ann, l.node) ∈ O.own)
    (hmu : ¬ O.mu) (hE : l.touched = true ∨ O.E ∨ ¬ L.real) (hb : l.node.Bound 127)
    (he : l.node.ExtOK) :
    RG kec O w (createSubset P kec t) (.ok (l.subset kec)) (RootOk kec) := by
  have key : RG kec O w (createSubset P kec t) (.ok (l.subset kec)) (fun w' t' l' =>
      RepN kec w' t' l' ∧ L.slot w' t'.ann none) := by
    rw [createSubset_eq, LTracked.subset_eq]
    refine RG.bind_ok (rg_hashAway ht ho hown hmu hE) ?_
    rintro w1 _ h1 rfl
    cases l.away kec with
    | some h =>
      exact (RG.of_sim (sim_new (fun a => .hash a h) (.hash h) true (fun _ => rfl)
        (fun _ _ _ => .hash _ _))).mono fun _ _ _ _ h => ⟨h.1, h.2.1⟩
    | none =>
      exact (RG.of_sim (sim_createBody true (ht.omono h1)
        fun l' _ t' w' ht' ho' => sim_createSubset l' t' w' ht' ho')).mono
          fun _ _ _ _ h => ⟨h.1, h.2.1⟩
  refine key.with.mono ?_
  rintro w' t' l' _ ⟨⟨h1, h2⟩, h3⟩
  cases h3
  exact ⟨h1, h2, LTracked.subset_bound hb, LTracked.subset_extOK he⟩

/-- The results of making several subsets. -/
def SubsRel (kec : Bytes → H256) [L : KindLaws kec α S] (w : L.W) :
    Except SubsetError (List (Trie α)) → Except Key (List LNode) → Prop
  | .error e, .error k => e = .unexpectedKey (ofList k)
  | .ok ts, .ok ls => List.Forall₂ (RootOk kec w) ts ls
  | _, _ => False

theorem rg_subsets {O : Borrow α} (hmu : ¬ O.mu) : ∀ (kss : List (List Key)) (l : LTracked)
    (t : Tracked α) (w : L.W), RepT kec w t l → L.slot w t.u.ann none →
    (t.u.ann, l.node) ∈ O.own → ([] ∉ kss ∨ O.E ∨ ¬ L.real) → l.node.Bound 127 → l.node.ExtOK →
    (∀ ks ∈ kss, ∀ k ∈ ks, k.length ≤ 127) →
    RG kec O w (createTrieSubsetsFrom P kec t (kss.map fun ks => ks.map ofList))
      (PSys.subsetsL P kec l kss) (SubsRel kec) := by
  intro kss
  induction kss with
  | nil => intro l t w _ _ _ _ _ _ _; exact ⟨_, rfl, .nil⟩
  | cons ks kss ih =>
    intro l t w ht ho hown hE hb he hk
    have hm := markRel_ok (P := P) ht hb (hk ks List.mem_cons_self)
    simp only [List.map_cons, createTrieSubsetsFrom, PSys.subsetsL]
    revert hm
    cases hx : markAll P t (ks.map ofList) with
    | error e =>
      cases hy : l.markAll P ks with
      | error e' => intro hm; cases hm; rfl
      | ok y => exact False.elim
    | ok x =>
      cases hy : l.markAll P ks with
      | error e' => exact False.elim
      | ok y =>
        intro hm
        cases x with
        | error e =>
          cases y with
          | ok y => exact hm.elim
          | error k => exact ⟨_, rfl, hm.1⟩
        | ok t1 =>
          cases y with
          | error k => exact hm.elim
          | ok l1 =>
            have ht1 : RepT kec w t1 l1 := hm
            have hnode := LTracked.markAll_node P ks l l1 hy
            have hu : t1.u = t.u := mark_u_all hx
            have hE1 : l1.touched = true ∨ O.E ∨ ¬ L.real := by
              rcases hE with h | h
              · exact .inl (LTracked.markAll_touched P ks l l1 hy
                  (.inl fun e => h (by rw [e]; exact List.mem_cons_self)))
              · exact .inr h
            have h1 := rg_createSubset (P := P) (O := O) ht1 (by rw [hu]; exact ho)
              (by rw [hu, hnode]; exact hown) hmu hE1 (by rw [hnode]; exact hb)
              (by rw [hnode]; exact he)
            simp only [R_bind_ok]
            refine RG.lift_bind rfl (RG.bind_ok h1 fun w1 t' hle hroot => ?_)
            refine RG.bind (ih l1.reset (resetTracked t1) w1 (ht1.omono hle).reset
              (by rw [u_reset, hu]; exact L.slot_mono hle ho)
              (by rw [u_reset, hu, LTracked.reset_node, hnode]; exact hown)
              (hE.imp (fun h e => h (List.mem_cons_of_mem _ e)) id)
              (by rw [LTracked.reset_node, hnode]; exact hb)
              (by rw [LTracked.reset_node, hnode]; exact he)
              (fun ks' hks' => hk ks' (List.mem_cons_of_mem _ hks'))) ?_
            rintro w2 (e | ts) (k | ls) hle2 hq
            · exact ⟨_, rfl, hq⟩
            · exact hq.elim
            · exact hq.elim
            · exact ⟨_, rfl, .cons (hroot.mono hle2) hq⟩

/-! ### All calls -/

/-- The roots a call borrows. -/
def ownOf (Z : List (Trie α × LNode)) (c : Cmd) : List (α × LNode) :=
  c.uses.filterMap fun i => Z[i]?.map fun z => (z.1.ann, z.2)

/-- What a call does to the cells of roots. -/
def borrowOf (E : Prop) (Z : List (Trie α × LNode)) (c : Cmd) : Borrow α :=
  ⟨E, ownOf Z c, c.mutates ≠ none⟩

/-- If the cells of roots may be filled, nothing is cloned; otherwise no subset for an empty list of
keys is made. -/
def Cmd.Fit (E real : Prop) : Cmd → Prop
  | .clone _ => ¬ E
  | .subset _ ks => ks ≠ [] ∨ E ∨ ¬ real
  | .subsets _ kss => [] ∉ kss ∨ E ∨ ¬ real
  | _ => True

/-- The reply to a mutating call. -/
theorem rg_mutate {O : Borrow α} {w : L.W} {i : Nat} {t : Trie α} {l : LNode}
    (ht : L.slot w t.ann none) (hmu : O.mu) (hown : O.own = [(t.ann, l)])
    {m : Prog α A} {r : R B} {ft : A → Trie α} {fl : B → LNode} {oa : A → Obs} {ob : B → Obs}
    (hsim : Sim kec w m r (fun w' x y => RepN kec w' (ft x) (fl y) ∧ (ft x).ann = t.ann ∧
      oa x = ob y))
    (hok : ∀ b, r = .ok b → (fl b).Bound 127 ∧ (fl b).ExtOK) :
    RG kec O w
      (do
        let x ← (do let x ← m; setHash (ft x) none; return x : Prog α A)
        return ⟨some (i, ft x), [], oa x⟩)
      (do
        let y ← r
        return ⟨some (i, fl y), [], ob y⟩) (ReplyRel kec O) := by
  have h1 : RG kec O w (do let x ← m; setHash (ft x) none; return x : Prog α A) r
      (fun w' x y => RepN kec w' (ft x) (fl y) ∧ (ft x).ann = t.ann ∧ oa x = ob y ∧
        L.slot w' t.ann none ∧ K.cacheGet t.ann (L.st w') = none) := by
    have := RG.bind (O := O) (g := fun y => .ok y) (f := fun x => do
        setHash (ft x) none; return x)
      (Q' := fun w' x y => RepN kec w' (ft x) (fl y) ∧ (ft x).ann = t.ann ∧ oa x = ob y ∧
        L.slot w' t.ann none ∧ K.cacheGet t.ann (L.st w') = none) (RG.of_sim hsim) ?_
    · cases r <;> exact this
    · rintro w' x y hle ⟨q1, q2, q3⟩ w1 hr
      have hs := L.slot_mono hr.ole (L.slot_mono hle ht)
      obtain ⟨w2, g1, g2⟩ := L.set_root none hs
      rw [q2]
      refine ⟨w2, .clear g1 g2, g2, _, rfl, (q1.mono hr.ole).mono g1, q2, q3,
        L.slot_mono g1 hs, ?_⟩
      rw [g2]
      exact L.get_set_none _ _
  refine RG.bind h1.with ?_
  rintro w' x y hle ⟨⟨q1, q2, q3, q4, q5⟩, hr⟩
  refine ⟨_, rfl, q3, .nil, rfl, ⟨q1, by rw [q2]; exact q4, (hok y hr).1, (hok y hr).2⟩, hmu,
    ⟨l, by rw [q2]; exact hown⟩, by rw [q2]; exact q5⟩

theorem rg_on {O : Borrow α} {w : L.W} {Z : List (Trie α × LNode)} {i : Nat}
    {f : Trie α → Prog α (Reply α)} {g : LNode → R PReply}
    (h : ∀ z, Z[i]? = some z → RG kec O w (f z.1) (g z.2) (ReplyRel kec O)) :
    RG kec O w (onHandle (Z.map (·.1)) i f) (onPlainR (Z.map (·.2)) i g) (ReplyRel kec O) := by
  unfold onHandle onPlainR
  rw [List.getElem?_map, List.getElem?_map]
  cases e : Z[i]? with
  | none => exact ⟨_, rfl, rfl, .nil, trivial⟩
  | some z => exact h z e

/-- A call that returns a value and changes nothing. -/
theorem rg_obs {O : Borrow α} {w : L.W} {m : Prog α A} {r : R B} {oa : A → Obs} {ob : B → Obs}
    (h : RG kec O w m r (fun _ x y => oa x = ob y)) :
    RG kec O w (do let x ← m; return ⟨none, [], oa x⟩) (do let y ← r; return ⟨none, [], ob y⟩)
      (ReplyRel kec O) := by
  refine RG.bind h ?_
  intro w' x y hle hq
  exact ⟨_, rfl, hq, .nil, trivial⟩

theorem rg_prog {E : Prop} {w : L.W} {Z : List (Trie α × LNode)}
    (hZ : ∀ z ∈ Z, RootOk kec w z.1 z.2) {c : Cmd} (hs : c.Short) (hf : c.Fit E L.real) :
    RG kec (borrowOf E Z c) w (c.prog P kec (Z.map (·.1))) (plainReply P kec (Z.map (·.2)) c)
      (ReplyRel kec (borrowOf E Z c)) := by
  have own1 : ∀ {i z}, c.uses = [i] → Z[i]? = some z →
      (borrowOf E Z c).own = [(z.1.ann, z.2)] := by
    intro i z h1 h2
    simp [borrowOf, ownOf, h1, h2]
  cases c with
  | new =>
    refine RG.bind_ok (.of_sim (sim_new (fun a => .empty a) .empty true (fun _ => rfl)
      (fun _ _ _ => .empty _))) ?_
    intro w' t hle hn
    exact ⟨_, rfl, rfl, .cons ⟨hn.1, hn.2.1, trivial, trivial⟩ .nil, trivial⟩
  | fromIter xs =>
    have h1 : RG kec (borrowOf E Z (.fromIter xs)) w
        (EthTrie.fromIter P (packEntries xs) : Prog α (Trie α)) (PSys.extendL .empty xs)
        (fun w' t l => RepN kec w' t l ∧ L.slot w' t.ann none) := by
      refine RG.bind_ok (.of_sim (sim_new (fun a => .empty a) .empty true (fun _ => rfl)
        (fun _ _ _ => .empty _))) ?_
      intro w1 t1 hle1 hn
      have := RG.bind (O := borrowOf E Z (.fromIter xs)) (g := fun y => .ok y)
        (f := fun t' => do setHash t' none; return t')
        (Q' := fun w' t l => RepN kec w' t l ∧ L.slot w' t.ann none)
        (RG.of_sim (sim_trieExtend (P := P) xs t1 .empty w1 hn.1 trivial hs)) ?_
      · revert this
        cases PSys.extendL .empty xs <;> exact id
      · rintro w2 t2 l2 hle2 ⟨q1, q2⟩ w3 hr
        have hsl : L.slot w3 t2.ann none := by
          rw [q2]; exact L.slot_mono hr.ole (L.slot_mono hle2 hn.2.1)
        obtain ⟨w4, g1, g2⟩ := L.set_root none hsl
        exact ⟨w4, .clear g1 g2, g2, _, rfl, (q1.mono hr.ole).mono g1, L.slot_mono g1 hsl⟩
    refine RG.bind h1.with ?_
    rintro w' t l hle ⟨⟨q1, q2⟩, hr⟩
    exact ⟨_, rfl, rfl, .cons ⟨q1, q2, extendL_bound (l := .empty) trivial hs hr,
      extendL_extOK (l := .empty) trivial hr⟩ .nil, trivial⟩
  | clone i =>
    refine rg_on fun z hz => ?_
    exact ⟨_, rfl, rfl, .cons (hZ z (List.mem_of_getElem? hz)) .nil, trivial⟩
  | insert i k v =>
    refine rg_on fun z hz => ?_
    have hok := hZ z (List.mem_of_getElem? hz)
    exact rg_mutate (ft := id) (fl := id) (oa := fun _ => .unit) (ob := fun _ => .unit) hok.slot
      (by simp [borrowOf, Cmd.mutates]) (own1 rfl hz)
      ((sim_trieInsert hok.rep hok.bound hs).mono fun _ _ _ _ hq => ⟨hq.1, hq.2, rfl⟩)
      (fun b hb => ⟨LNode.insert_bound hok.bound hs hb, (LNode.insert_extOK hok.ext hb).1⟩)
  | extend i xs =>
    refine rg_on fun z hz => ?_
    have hok := hZ z (List.mem_of_getElem? hz)
    exact rg_mutate (ft := id) (fl := id) (oa := fun _ => .unit) (ob := fun _ => .unit) hok.slot
      (by simp [borrowOf, Cmd.mutates]) (own1 rfl hz)
      ((sim_trieExtend xs _ _ w hok.rep hok.bound hs).mono fun _ _ _ _ hq => ⟨hq.1, hq.2, rfl⟩)
      (fun b hb => ⟨extendL_bound hok.bound hs hb, extendL_extOK hok.ext hb⟩)
  | delete i k =>
    refine rg_on fun z hz => ?_
    have hok := hZ z (List.mem_of_getElem? hz)
    exact rg_mutate (ft := Prod.fst) (fl := Prod.fst) (oa := fun x => .val x.2)
      (ob := fun x => .val x.2) hok.slot
      (by simp [borrowOf, Cmd.mutates]) (own1 rfl hz)
      ((sim_trieDelete hok.rep hok.bound hs).mono fun _ _ _ _ hq => ⟨hq.1, hq.2.1, by rw [hq.2.2]⟩)
      (fun b hb => ⟨LNode.delete_bound hok.bound (LNode.deleteA_ok hb),
        LNode.delete_extOK hok.ext (LNode.deleteA_ok hb)⟩)
  | get i k =>
    refine rg_on fun z hz => ?_
    have hok := hZ z (List.mem_of_getElem? hz)
    have hs : k.length ≤ 127 := hs
    refine rg_obs (oa := .val) (ob := .val) ?_
    rw [Trie.get, getIntern_eq (P := P) z.2 z.1 w k hok.rep (hok.bound.mono (by omega)) (by omega)]
    cases z.2.get P k with
    | error e => rfl
    | ok o => exact ⟨_, rfl, rfl⟩
  | hash i =>
    refine rg_on fun z hz => ?_
    have hok := hZ z (List.mem_of_getElem? hz)
    refine rg_obs (r := .ok (z.2.rootHash kec)) (oa := .root) (ob := .root) ?_
    intro w' hr
    rcases hr.ok (z.1.ann, z.2) (by rw [own1 rfl hz]; simp) with hn | ⟨_, h, h1, h2⟩
    · rw [hn]
      refine RG.bind_ok (.of_sim (sim_encode (P := P) _ _ w' (hok.rep.mono hr.ole))) ?_
      rintro w2 x hle2 rfl
      exact ⟨_, rfl, rfl⟩
    · rw [h1]
      refine ⟨_, rfl, ?_⟩
      simp [LNode.rootHash, h2, EncodedNode.toH256]
  | items i =>
    refine rg_on fun z hz => ?_
    have hok := hZ z (List.mem_of_getElem? hz)
    rw [items_exact hok.rep hok.ext]
    cases z.2.itemsA with
    | error e => rfl
    | ok x => exact ⟨_, rfl, rfl, .nil, trivial⟩
  | eq i j =>
    refine rg_on fun z hz => ?_
    refine rg_on fun z' hz' => ?_
    refine ⟨_, rfl, ?_, .nil, trivial⟩
    have := beq_iff (hZ z (List.mem_of_getElem? hz)).rep (hZ z' (List.mem_of_getElem? hz')).rep
    show Obs.bool _ = Obs.bool _
    congr 1
    rw [Bool.eq_iff_iff, this]
    simp
  | subset i ks =>
    refine rg_on fun z hz => ?_
    have hok := hZ z (List.mem_of_getElem? hz)
    have hs : ∀ k ∈ ks, k.length ≤ 127 := hs
    have hm := markRel_ok (P := P) hok.rep.tracked (by rw [LTracked.node_new]; exact hok.bound) hs
    have hmu : ¬ (borrowOf E Z (.subset i ks)).mu := by simp [borrowOf, Cmd.mutates]
    simp only [createTrieSubset]
    revert hm
    cases hx : markAll P (Tracked.new z.1) (ks.map ofList) with
    | error e =>
      cases hy : (LTracked.new z.2).markAll P ks with
      | error e' => intro hm; cases hm; rfl
      | ok y => exact False.elim
    | ok x =>
      cases hy : (LTracked.new z.2).markAll P ks with
      | error e' => exact False.elim
      | ok y =>
        intro hm
        cases x with
        | error e =>
          cases y with
          | ok y => exact hm.elim
          | error k => exact ⟨_, rfl, congrArg Obs.err hm.1, .nil, trivial⟩
        | ok t1 =>
          cases y with
          | error k => exact hm.elim
          | ok l1 =>
            have ht1 : RepT kec w t1 l1 := hm
            have hnode : l1.node = z.2 :=
              (LTracked.markAll_node P ks _ l1 hy).trans (LTracked.node_new _)
            have hu : t1.u = z.1 := (mark_u_all hx).trans (u_new _)
            have hE1 : l1.touched = true ∨ (borrowOf E Z (.subset i ks)).E ∨ ¬ L.real := by
              rcases hf with h | h
              · exact .inl (LTracked.markAll_touched P ks _ l1 hy (.inl h))
              · exact .inr h
            refine RG.bind_ok (b := l1.subset kec)
              (Q := fun w x y => ∃ t', x = .ok t' ∧ RootOk kec w t' y) ?_ ?_
            · refine RG.lift_bind rfl (RG.bind_ok
                (rg_createSubset (P := P) ht1 (by rw [hu]; exact hok.slot)
                  (by rw [hu, hnode, own1 rfl hz]; simp) hmu hE1 (by rw [hnode]; exact hok.bound)
                  (by rw [hnode]; exact hok.ext)) ?_)
              intro w' t' hle hq
              exact ⟨_, rfl, _, rfl, hq⟩
            · rintro w' _ hle ⟨t', rfl, hq⟩
              exact ⟨_, rfl, rfl, .cons hq .nil, trivial⟩
  | subsets i kss =>
    refine rg_on fun z hz => ?_
    have hok := hZ z (List.mem_of_getElem? hz)
    have hmu : ¬ (borrowOf E Z (.subsets i kss)).mu := by simp [borrowOf, Cmd.mutates]
    refine RG.bind (rg_subsets (P := P) hmu kss (LTracked.new z.2) (Tracked.new z.1) w
      hok.rep.tracked (by rw [u_new]; exact hok.slot)
      (by rw [u_new, LTracked.node_new, own1 rfl hz]; simp) hf
      (by rw [LTracked.node_new]; exact hok.bound) (by rw [LTracked.node_new]; exact hok.ext) hs) ?_
    rintro w2 (e | ts) (k | ls) hle2 hq
    · exact ⟨_, rfl, congrArg Obs.err hq, .nil, trivial⟩
    · exact hq.elim
    · exact hq.elim
    · exact ⟨_, rfl, rfl, hq, trivial⟩

end
end EthTrie
