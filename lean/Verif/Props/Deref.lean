import Verif.Props.Stale
import Verif.Sys.Views

/-!
# Properties C52 and C53: sub-tries and overwritten nodes
-/

namespace EthTrie

open Spec KMap LNode Nibbles

section
variable {K : Kind} {M : Mode} {P : Profile} {kec : Bytes → H256} {s : Sys K.Ann K.State}
  {i : Nat} {t u : Trie K.Ann} {q : Key}

/-! ## C52 -/

theorem Live.node (h : Live K M P kec s) (hi : s.hs[i]? = some t) (hu : t.NodeAt q u) :
    u.Plain kec := by
  obtain ⟨w, p, Z, h1, _⟩ := h.inv.ex
  obtain ⟨l, hr, _⟩ := h1.nodeAt hi hu
  have e := hr.plain
  rw [Trie.Plain, e]
  exact repN_bare hr

theorem Trie.Plain.hash {α : Type} {t : Trie α} (h : t.Plain kec) :
    (t.bare.rootHash P kec ()).map (·.1) = .ok (t.plain.rootHash kec) := by
  obtain ⟨x, w', g1, _, rfl⟩ := run_rootHash (P := P) (L := lawsUnit kec) (w := ()) h
  have g2 : Trie.rootHash P kec t.bare () = _ := g1
  rw [g2]; rfl

/-- C52: a sub-trie has the entries below its path. -/
theorem C52_contents {α : Type} {t u : Trie α} {q : Key} (hu : t.NodeAt q u) :
    u.contents = t.contents.sub q := hu.at.abs

/-- C52: the hash of every proper sub-trie is right, whatever happened to the roots before. -/
theorem C52_hash (h : Live K M P kec s) (hi : s.hs[i]? = some t) (hu : t.NodeAt q u) (hq : q ≠ []) :
    (u.rootHash P kec s.state).map (·.1) = (u.bare.rootHash P kec ()).map (·.1) := by
  rw [(h.node hi hu).hash]
  obtain ⟨w, p, Z, h1, _⟩ := h.inv.ex
  obtain ⟨l, hr, _, _, _, hs⟩ := h1.nodeAt hi hu
  rcases hs with ⟨hq', _⟩ | hs
  · exact absurd hq' hq
  obtain ⟨x, w', g1, _, rfl⟩ := run_rootHash (L := Kind.laws kec K) (P := P) hr
  rw [hr.plain, h1.state, g1]
  simp only [Except.map]
  cases hg : K.trieKind.cacheGet u.ann ((Kind.laws kec K).st w) with
  | none => rfl
  | some y =>
    rw [LNode.rootHash, (Kind.laws kec K).get_ok hs hg]
    rfl

/-- The child of the root below the nibble `1`, a branch. -/
example (K : Kind) (P : Profile) {a : K.Ann} {cs : Fin 16 → Trie K.Ann} {v : Bytes}
    (h : caseT K P 0 = .branch a cs v) : ((cs 1).rootHash P kec0 (caseS K P).state).map (·.1) =
      ((cs 1).bare.rootHash P kec0 ()).map (·.1) :=
  have hu : (caseT K P 0).NodeAt [1] (cs 1) := by rw [h]; exact .branch _ _ _ 1 _ _ (.here _)
  C52_hash (caseLive K P) (caseGet K P (by decide)) hu (by decide)

example (K : Kind) (P : Profile) : ∃ a cs v, caseT K P 0 = .branch a cs v := by
  have h : (match caseT K P 0 with | .branch _ _ _ => true | _ => false) = true := by
    obtain ⟨P⟩ := P; cases K <;> cases P <;> decide +kernel
  generalize caseT K P 0 = t at *
  cases t <;> first | exact ⟨_, _, _, rfl⟩ | cases h

/-- C52: the hash of a handle is that in the cell of its root, or if there is none the right one. -/
theorem C52_handle (h : Live K M P kec s) (hi : s.hs[i]? = some t) :
    (t.rootHash P kec s.state).map (·.1) = match K.trieKind.cacheGet t.ann s.state with
      | some x => .ok x
      | none => (t.bare.rootHash P kec ()).map (·.1) := by
  have hr := (h.node hi (.here t)).hash (P := P)
  obtain ⟨w, p, Z, h1, _⟩ := h.inv.ex
  obtain ⟨l, f, hz⟩ := h1.zip hi
  have hok := h1.ok _ (List.mem_of_getElem? hz)
  obtain ⟨x, w', g1, _, rfl⟩ := run_rootHash (L := Kind.laws kec K) (P := P) hok.rep
  rw [hr, h1.state, g1, hok.rep.plain]
  simp only [Except.map]
  cases K.trieKind.cacheGet t.ann ((Kind.laws kec K).st w) <;> rfl

example (K : Kind) (P : Profile) : ((caseT K P 0).rootHash P kec0 (caseS K P).state).map (·.1) =
    match K.trieKind.cacheGet (caseT K P 0).ann (caseS K P).state with
      | some x => .ok x
      | none => ((caseT K P 0).bare.rootHash P kec0 ()).map (·.1) :=
  C52_handle (caseLive K P) (caseGet K P (by decide))

/-- C52: a sub-trie of a trie is equal to every trie with the entries below its path that was built
in any way, in any other program. -/
theorem C52_fresh {K₂ : Kind} {M₂ : Mode} {P₂ : Profile} {kec₂ : Bytes → H256}
    {s₂ : Sys K₂.Ann K₂.State} {i₂ : Nat} {t₂ : Trie K₂.Ann} (h : Reached K M P kec s)
    (h₂ : Reached K₂ M₂ P₂ kec₂ s₂) (hi : s.hs[i]? = some t) (hu : t.NodeAt q u)
    (hi₂ : s₂.hs[i₂]? = some t₂) : u.beq t₂ = true ↔ t.contents.sub q = t₂.contents := by
  have hc := hu.at.canon (h.canon (List.mem_of_getElem? hi)).1
  have hc₂ := (h₂.canon (List.mem_of_getElem? hi₂)).1
  have hw : u.WFKeys := by
    obtain ⟨w, p, Z, h1, _⟩ := h.live.inv.ex
    obtain ⟨l, hr, _⟩ := h1.nodeAt hi hu
    exact hr.wfKeys
  rw [Trie.beq_iff_plain hw (h₂.live.wfKeys (List.mem_of_getElem? hi₂)), ← C52_contents hu]
  exact ⟨fun e => by rw [Trie.contents, e]; rfl, canon_unique _ _ hc hc₂⟩

end

/-! ### Programs -/

theorem bare_setAnn {α : Type} (t : Trie α) (a : α) : (t.setAnn a).bare = t.bare := by
  cases t <;> rfl

theorem nodeAt?_bare {α : Type} (t : Trie α) (q : Key) :
    t.bare.nodeAt? q = (t.nodeAt? q).map Trie.bare := by
  induction t generalizing q with
  | branch a cs v ih =>
    cases q with
    | nil => rfl
    | cons d q => exact ih d q
  | ext a n c ih =>
    cases q with
    | nil => rfl
    | cons d q =>
      simp only [Trie.bare, Trie.nodeAt?]
      split
      · exact ih _
      · rfl
  | _ => cases q <;> rfl

theorem bares_get {α S : Type} {s : Sys α S} {i : Nat} :
    s.bares[i]? = (s.hs[i]?).map Trie.bare := by
  rw [Sys.bares, List.getElem?_map]

/-- One call in states that look the same. -/
theorem LiveInv.call {P : Profile} {kec : Bytes → H256} {M₁ M₂ : Mode}
    {s₁ : Sys Kind.standard.Ann Kind.standard.State} {s₂ : Sys Kind.hashed.Ann Kind.hashed.State}
    (h₁ : LiveInv .standard M₁ kec s₁) (h₂ : LiveInv .hashed M₂ kec s₂) (hb : s₁.bares = s₂.bares)
    {c : Cmd} (hc : c.Short) (hf : s₂.FreshFor kec c) :
    bareRes (s₁.exec P kec c) = bareRes (s₂.exec P kec c) := by
  have plains : ∀ {K : Kind} {s : Sys K.Ann K.State}, s.plains = s.bares.map Trie.plain := by
    intro K s
    simp [Sys.plains, Sys.bares, Function.comp_def, plain_bare]
  have e1 := h₁.plain (P := P) hc (standard_fresh s₁ c)
  have e2 := h₂.plain (P := P) hc hf
  rw [plains, hb, ← plains, ← e2] at e1
  obtain ⟨w₁, p₁, Z₁, i1, _⟩ := h₁.ex
  obtain ⟨w₂, p₂, Z₂, i2, _⟩ := h₂.ex
  have q1 := exec_refine (L := Kind.laws kec .standard) (P := P) (Kind.standard.cells_real kec) i1 hc
  have q2 := exec_refine (L := Kind.laws kec .hashed) (P := P) (Kind.hashed.cells_real kec) i2 hc
  have e3 := q1.plain.symm.trans (e1.trans q2.plain)
  revert q1 q2 e3
  rcases p₁.exec P Kind.standard.cells kec c with e | ⟨p₁', o₁⟩ <;>
    rcases p₂.exec P Kind.hashed.cells kec c with e' | ⟨p₂', o₂⟩
  · intro q1 q2 e3
    cases e3
    rw [show s₁.exec P kec c = .error e from q1, show s₂.exec P kec c = .error e from q2]
    rfl
  · intro _ _ h; cases h
  · intro _ _ h; cases h
  · rintro ⟨s₁', w₁', Z₁', k1, _, k2⟩ ⟨s₂', w₂', Z₂', k3, _, k4⟩ e3
    simp only [PSys.plainRes, Except.map, Except.ok.injEq, Prod.mk.injEq] at e3
    obtain ⟨e3, rfl⟩ := e3
    rw [k1, k3]
    simp only [bareRes, Except.map, bares_eq k2 k4 e3]

theorem bareRes_onNode {α₁ S₁ α₂ S₂ : Type} {s₁ : Sys α₁ S₁} {s₂ : Sys α₂ S₂}
    (hb : s₁.bares = s₂.bares) (i : Nat) (q : Key) {f₁ : Trie α₁ → R (Sys α₁ S₁ × Obs)}
    {f₂ : Trie α₂ → R (Sys α₂ S₂ × Obs)}
    (hf : ∀ u₁ u₂, u₁.bare = u₂.bare → bareRes (f₁ u₁) = bareRes (f₂ u₂)) :
    bareRes (s₁.onNode i q f₁) = bareRes (s₂.onNode i q f₂) := by
  have e : (s₁.hs[i]?).map Trie.bare = (s₂.hs[i]?).map Trie.bare := by
    rw [← bares_get, ← bares_get, hb]
  have hs : bareRes (.ok (s₁, Obs.noHandle)) = bareRes (.ok (s₂, Obs.noHandle)) := by
    simp only [bareRes, Except.map, hb]
  unfold Sys.onNode Sys.on
  rcases hi₁ : s₁.hs[i]? with _ | t₁ <;> rcases hi₂ : s₂.hs[i]? with _ | t₂ <;>
    rw [hi₁, hi₂] at e
  · exact hs
  · cases e
  · cases e
  · simp only
    have e' : (t₁.nodeAt? q).map Trie.bare = (t₂.nodeAt? q).map Trie.bare := by
      rw [← nodeAt?_bare, ← nodeAt?_bare, Option.some.inj e]
    rcases hn₁ : t₁.nodeAt? q with _ | u₁ <;> rcases hn₂ : t₂.nodeAt? q with _ | u₂ <;>
      rw [hn₁, hn₂] at e'
    · exact hs
    · cases e'
    · cases e'
    · exact hf _ _ (Option.some.inj e')

theorem bares_append {α S : Type} (st : S) (hs : List (Trie α)) (t : Trie α) :
    (⟨st, hs ++ [t]⟩ : Sys α S).bares = hs.map Trie.bare ++ [t.bare] := by
  simp [Sys.bares]

/-! ### Assembled nodes -/

/-- Both or neither of two results exist, and if so they are related. -/
def Option.Both {β γ : Type} (r : β → γ → Prop) : Option β → Option γ → Prop
  | some x, some y => r x y
  | none, none => True
  | _, _ => False

/-- Two runs end without a panic, with related results. -/
def Prog.Both {α₁ S₁ α₂ S₂ β γ : Type} [TrieKind α₁ S₁] [TrieKind α₂ S₂] (r : β → γ → Prop)
    (p₁ : Prog α₁ β) (p₂ : Prog α₂ γ) : Prop :=
  ∀ (s₁ : S₁) (s₂ : S₂), ∃ x y s₁' s₂', p₁.run s₁ = .ok (x, s₁') ∧ p₂.run s₂ = .ok (y, s₂') ∧ r x y

section
variable {α₁ S₁ α₂ S₂ β γ β' γ' : Type} [TrieKind α₁ S₁] [TrieKind α₂ S₂]

theorem Prog.Both.bind {r : β → γ → Prop} {r' : β' → γ' → Prop} {p₁ : Prog α₁ β} {p₂ : Prog α₂ γ}
    {f₁ : β → Prog α₁ β'} {f₂ : γ → Prog α₂ γ'} (h : Prog.Both (S₁ := S₁) (S₂ := S₂) r p₁ p₂)
    (hf : ∀ x y, r x y → Prog.Both (S₁ := S₁) (S₂ := S₂) r' (f₁ x) (f₂ y)) :
    Prog.Both (S₁ := S₁) (S₂ := S₂) r' (p₁.bind f₁) (p₂.bind f₂) := by
  intro s₁ s₂
  obtain ⟨x, y, s₁', s₂', h1, h2, h3⟩ := h s₁ s₂
  obtain ⟨x', y', s₁'', s₂'', g1, g2, g3⟩ := hf x y h3 s₁' s₂'
  refine ⟨x', y', s₁'', s₂'', ?_, ?_, g3⟩
  · have := Prog.bind_run p₁ f₁ s₁
    rw [h1] at this
    exact this.trans g1
  · have := Prog.bind_run p₂ f₂ s₂
    rw [h2] at this
    exact this.trans g2

theorem Prog.Both.ret {r : β → γ → Prop} {x : β} {y : γ} (h : r x y) :
    Prog.Both (S₁ := S₁) (S₂ := S₂) r (.ret x : Prog α₁ β) (.ret y : Prog α₂ γ) :=
  fun s₁ s₂ => ⟨x, y, s₁, s₂, rfl, rfl, h⟩

theorem Prog.Both.collect {n : Nat} {r : β → γ → Prop} {p₁ : Fin n → Prog α₁ β} {p₂ : Fin n → Prog α₂ γ}
    (h : ∀ i, Prog.Both (S₁ := S₁) (S₂ := S₂) r (p₁ i) (p₂ i)) :
    Prog.Both (S₁ := S₁) (S₂ := S₂) (fun f g => ∀ i, r (f i) (g i)) (Prog.collect n p₁)
      (Prog.collect n p₂) := by
  induction n with
  | zero => exact .ret fun i => i.elim0
  | succ n ih =>
    refine (h 0).bind fun x y hxy => (ih fun i => h i.succ).bind fun f g hfg => .ret fun i => ?_
    exact Fin.cases hxy hfg i

theorem allSome_both {n : Nat} {r : β → γ → Prop} {f : Fin n → Option β} {g : Fin n → Option γ}
    (h : ∀ i, Option.Both r (f i) (g i)) :
    Option.Both (fun f g => ∀ i, r (f i) (g i)) (allSome f) (allSome g) := by
  have e : (∀ i, (f i).isSome) ↔ ∀ i, (g i).isSome := by
    refine forall_congr' fun i => ?_
    have := h i
    revert this
    cases f i <;> cases g i <;> simp [Option.Both]
  unfold allSome
  by_cases hf : ∀ i, (f i).isSome
  · have hg := e.1 hf
    rw [dif_pos hf, dif_pos hg]
    intro i
    have a := Option.some_get (hf i)
    have b := Option.some_get (hg i)
    have := h i
    rw [← a, ← b] at this
    exact this
  · have hg : ¬ ∀ i, (g i).isSome := fun h => hf (e.2 h)
    rw [dif_neg hf, dif_neg hg]
    trivial

theorem lookupNode_both {hs₁ : List (Trie α₁)} {hs₂ : List (Trie α₂)}
    (hb : hs₁.map Trie.bare = hs₂.map Trie.bare) (i : Nat) (q : Key) :
    Option.Both (fun t u => t.bare = u.bare) (lookupNode hs₁ i q) (lookupNode hs₂ i q) := by
  have e : (hs₁[i]?).map Trie.bare = (hs₂[i]?).map Trie.bare := by
    rw [← List.getElem?_map, ← List.getElem?_map, hb]
  unfold lookupNode
  revert e
  cases hs₁[i]? <;> cases hs₂[i]? <;> intro e
  · trivial
  · cases e
  · cases e
  · rename_i t₁ t₂
    have e' : (t₁.nodeAt? q).map Trie.bare = (t₂.nodeAt? q).map Trie.bare := by
      rw [← nodeAt?_bare, ← nodeAt?_bare, Option.some.inj e]
    show Option.Both _ (t₁.nodeAt? q) (t₂.nodeAt? q)
    revert e'
    cases t₁.nodeAt? q <;> cases t₂.nodeAt? q <;> intro e'
    · trivial
    · cases e'
    · cases e'
    · exact Option.some.inj e'

variable {hs₁ : List (Trie α₁)} {hs₂ : List (Trie α₂)}

mutual

/-- Making a node does not panic, and does not depend on caches. -/
theorem BNode.eval_bare (hb : hs₁.map Trie.bare = hs₂.map Trie.bare) : ∀ n : BNode,
    Prog.Both (S₁ := S₁) (S₂ := S₂) (Option.Both fun f g => ∀ a b, (f a).bare = (g b).bare)
      (n.eval hs₁) (n.eval hs₂)
  | .empty => .ret fun _ _ => rfl
  | .hash _ => .ret fun _ _ => rfl
  | .leaf _ _ => .ret fun _ _ => rfl
  | .ext n c => (BChild.eval_bare hb c).bind fun x y h => .ret (by
      cases x <;> cases y <;> first | exact h.elim | trivial | skip
      intro a b
      have h : Trie.bare _ = Trie.bare _ := h
      simp only [Trie.bare, h])
  | .branch cs v => (Prog.Both.collect fun i => BChild.eval_bare hb (cs i)).bind fun x y h => .ret (by
      have h' := allSome_both h
      revert h'
      cases allSome x <;> cases allSome y <;> intro h' <;> first | exact h'.elim | trivial | skip
      intro a b
      have h' : ∀ i, _ = _ := h'
      simp only [Trie.bare]
      congr 1
      funext i
      exact h' i)
  | .copy i q => .ret (by
      have h := lookupNode_both hb i q
      revert h
      cases lookupNode hs₁ i q <;> cases lookupNode hs₂ i q <;> intro h <;>
        first | exact h.elim | trivial | skip
      intro a b
      rw [bare_setAnn, bare_setAnn]
      exact h)

/-- See `BNode.eval_bare`. -/
theorem BChild.eval_bare (hb : hs₁.map Trie.bare = hs₂.map Trie.bare) : ∀ c : BChild,
    Prog.Both (S₁ := S₁) (S₂ := S₂) (Option.Both fun t u => t.bare = u.bare)
      (c.eval hs₁) (c.eval hs₂)
  | .share i q => .ret (lookupNode_both hb i q)
  | .new n => (BNode.eval_bare hb n).bind fun x y h => by
      cases x <;> cases y <;> first | exact h.elim | skip
      · exact .ret trivial
      · intro s₁ s₂
        exact ⟨_, _, _, _, rfl, rfl, h _ _⟩
  | .put i q n => (BNode.eval_bare hb n).bind fun x y h => .ret (by
      have h' := lookupNode_both hb i q
      revert h'
      cases x <;> cases y <;> cases lookupNode hs₁ i q <;> cases lookupNode hs₂ i q <;> intro h' <;>
        first | exact h.elim | exact h'.elim | trivial | exact h _ _)

end

end

theorem formed_bare {α : Type} {t : Trie α} {b : Nat} : t.bare.Formed b ↔ t.Formed b := by
  induction t generalizing b with
  | branch a cs v ih => exact and_congr_right fun _ => forall_congr' fun i => ih i
  | ext a n c ih =>
    refine and_congr_right fun _ => and_congr_right fun _ => and_congr_right fun _ => and_congr ?_ ih
    cases c <;> rfl
  | _ => rfl

/-- C52 and C53, one step: if no cell that is read is stale. -/
theorem C52_step {P : Profile} {kec : Bytes → H256} {M₁ M₂ : Mode}
    {s₁ : Sys Kind.standard.Ann Kind.standard.State} {s₂ : Sys Kind.hashed.Ann Kind.hashed.State}
    (h₁ : Live .standard M₁ P kec s₁) (h₂ : Live .hashed M₂ P kec s₂) (hb : s₁.bares = s₂.bares)
    {c : NCmd} (hc : c.Short) (hf : ∀ d, c = .call d → s₂.FreshFor kec d) :
    bareRes (s₁.execN P kec c) = bareRes (s₂.execN P kec c) := by
  have hb' : s₁.hs.map Trie.bare = s₂.hs.map Trie.bare := hb
  cases c with
  | call c => exact h₁.inv.call h₂.inv hb hc (hf c rfl)
  | share i q =>
    refine bareRes_onNode hb i q fun u₁ u₂ e => ?_
    simp only [bareRes, Except.map, bares_append, hb', e]
  | take i q =>
    refine bareRes_onNode hb i q fun u₁ u₂ e => ?_
    simp only [bareRes, Except.map, bares_append, bare_setAnn, hb', e]
  | assign i j q =>
    have e : (s₁.hs[i]?).map Trie.bare = (s₂.hs[i]?).map Trie.bare := by
      rw [← bares_get, ← bares_get, hb]
    simp only [Sys.execN, Sys.on]
    rcases hi₁ : s₁.hs[i]? with _ | t₁ <;> rcases hi₂ : s₂.hs[i]? with _ | t₂ <;>
      rw [hi₁, hi₂] at e
    · simp only [bareRes, Except.map, hb]
    · cases e
    · cases e
    · refine bareRes_onNode hb j q fun u₁ u₂ e => ?_
      simp only [bareRes, Except.map, Sys.bares, List.map_set, bare_setAnn, hb', e]
  | build n =>
    obtain ⟨x, y, σ₁, σ₂, g1, g2, g3⟩ := BNode.eval_bare hb' n s₁.state s₂.state
    simp only [Sys.execN, g1, g2, R_bind_ok]
    cases x <;> cases y <;> first | exact g3.elim | skip
    · simp only [bareRes, Except.map, pure, Except.pure, hb]
    · rename_i f g
      have g3 : ∀ a b, (f a).bare = (g b).bare := g3
      simp only [bareRes, Except.map, pure, Except.pure, bares_append, hb',
        g3 _ (TrieKind.alloc σ₂).1]
  | edit i n =>
    have e : (s₁.hs[i]?).map Trie.bare = (s₂.hs[i]?).map Trie.bare := by
      rw [← bares_get, ← bares_get, hb]
    simp only [Sys.execN, Sys.on]
    rcases hi₁ : s₁.hs[i]? with _ | t₁ <;> rcases hi₂ : s₂.hs[i]? with _ | t₂ <;>
      rw [hi₁, hi₂] at e
    · simp only [bareRes, Except.map, hb]
    · cases e
    · cases e
    · obtain ⟨x, y, σ₁, σ₂, g1, g2, g3⟩ := BNode.eval_bare hb' n s₁.state s₂.state
      simp only [g1, g2, R_bind_ok]
      cases x <;> cases y <;> first | exact g3.elim | skip
      · simp only [bareRes, Except.map, pure, Except.pure, hb]
      · rename_i f g
        have g3 : ∀ a b, (f a).bare = (g b).bare := g3
        simp only [bareRes, Except.map, pure, Except.pure, Sys.bares, List.map_set, hb', g3 _ t₂.ann]

/-- Whether nodes are well-made does not depend on caches. -/
theorem Sys.WellMade.bare {α₁ S₁ α₂ S₂ : Type} [TrieKind α₁ S₁] [TrieKind α₂ S₂] {s₁ : Sys α₁ S₁}
    {s₂ : Sys α₂ S₂} (hb : s₁.bares = s₂.bares) {c : NCmd} (h : s₁.WellMade c) : s₂.WellMade c := by
  have key : ∀ n : BNode,
      (∀ f st, (n.eval s₁.hs).run s₁.state = .ok (some f, st) → ∀ a, (f a).Formed 127) →
      ∀ f st, (n.eval s₂.hs).run s₂.state = .ok (some f, st) → ∀ a, (f a).Formed 127 := by
    intro n h f st he a
    obtain ⟨x, y, σ₁, σ₂, g1, g2, g3⟩ := BNode.eval_bare (S₁ := S₁) (S₂ := S₂) hb n s₁.state s₂.state
    rw [he] at g2
    cases g2
    cases x with
    | none => exact g3.elim
    | some g =>
      have g3 : ∀ a b, (g a).bare = (f b).bare := g3
      have := h g σ₁ g1 (TrieKind.alloc (α := α₁) σ₁).1
      rw [← formed_bare, ← g3 (TrieKind.alloc (α := α₁) σ₁).1, formed_bare]
      exact this
  cases c with
  | build n => exact key n h
  | edit i n => exact key n h
  | _ => trivial

/-- A program that makes no nodes by hand. -/
def NCmd.NoMake : NCmd → Prop
  | .build _ => False
  | .edit _ _ => False
  | _ => True

theorem allMade_of {α S : Type} [TrieKind α S] {P : Profile} {kec : Bytes → H256} {cs : List NCmd}
    (h : ∀ c ∈ cs, c.NoMake) (s : Sys α S) : s.AllMade P kec cs := by
  induction cs generalizing s with
  | nil => trivial
  | cons c cs ih =>
    refine ⟨?_, fun s' o _ => ih (fun c hc => h c (by simp [hc])) s'⟩
    have := h c (by simp)
    cases c <;> first | exact this.elim | trivial

/-- Programs with `StandardTrie` and `HashedPartialTrie`. -/
theorem runN_bare (P : Profile) (kec : Bytes → H256) (M : Mode) [M.Safe] {cs : List NCmd}
    (hc : ∀ c ∈ cs, c.Short) (hp : ∀ c ∈ cs, permittedN .hashed M c)
    (hm : Kind.standard.start.AllMade P kec cs) :
    bareRes (Kind.standard.runN P kec cs) = bareRes (Kind.hashed.runN P kec cs) := by
  have key : ∀ (cs : List NCmd) (s₁ : Sys Kind.standard.Ann Kind.standard.State)
      (s₂ : Sys Kind.hashed.Ann Kind.hashed.State), (∀ c ∈ cs, c.Short) →
      (∀ c ∈ cs, permittedN .hashed M c) → s₁.AllMade P kec cs →
      Live .standard M P kec s₁ → Live .hashed M P kec s₂ → s₁.bares = s₂.bares →
      bareRes (s₁.runN P kec cs) = bareRes (s₂.runN P kec cs) := by
    intro cs
    induction cs with
    | nil =>
      intro s₁ s₂ _ _ _ _ _ hb
      simp only [bareRes, Sys.runN, Except.map, hb]
    | cons c cs ih =>
      intro s₁ s₂ hc hp hm h₁ h₂ hb
      have := C52_step h₁ h₂ hb (hc c (by simp)) fun d _ => freshFor_of h₂.inv.freshAt d
      revert this
      rcases he1 : s₁.execN P kec c with e | ⟨s₁', o₁⟩ <;>
        rcases he2 : s₂.execN P kec c with e' | ⟨s₂', o₂⟩
      · intro h
        cases h
        simp only [Sys.runN, he1, he2]
        rfl
      · intro h; cases h
      · intro h; cases h
      · intro h
        simp only [bareRes, Except.map, Except.ok.injEq, Prod.mk.injEq] at h
        obtain ⟨hb', rfl⟩ := h
        have h := ih s₁' s₂' (fun c h => hc c (by simp [h])) (fun c h => hp c (by simp [h]))
          (hm.2 _ _ he1) (.nodes h₁ (hc c (by simp)) trivial hm.1 he1)
          (.nodes h₂ (hc c (by simp)) (hp c (by simp)) (hm.1.bare hb) he2) hb'
        simp only [Sys.runN, he1, he2, R_bind_ok]
        revert h
        rcases s₁'.runN P kec cs with e | ⟨s₁'', os₁⟩ <;>
          rcases s₂'.runN P kec cs with e' | ⟨s₂'', os₂⟩ <;>
          simp [bareRes, Except.map] <;> intro h <;> simp [h]
  exact key cs _ _ hc hp hm .start .start rfl

/-- C52 and C53: a program with `HashedPartialTrie` that makes new tries from the nodes of sub-tries
and, if it makes no subset for no keys, overwrites nodes, does the same as with `StandardTrie`: all
results are the same, panics included, and the tries are the same up to caches at the end.  (For the
modes see `permitted`: without clones, or without subsets for no keys.)  For nodes that are made by
hand see `C58_partial`.  Missing: clones of inner nodes, see `C52_false` and `C52_clone`. -/
theorem C52_partial (P : Profile) (kec : Bytes → H256) (M : Mode) [M.Safe] {cs : List NCmd}
    (hc : ∀ c ∈ cs, c.Short) (hp : ∀ c ∈ cs, permittedN .hashed M c) (hn : ∀ c ∈ cs, c.NoMake) :
    bareRes (Kind.standard.runN P kec cs) = bareRes (Kind.hashed.runN P kec cs) :=
  runN_bare P kec M hc hp (allMade_of hn _)

/-! ### Clones of inner nodes -/

/-- All cells that are written are filled. -/
def Prog.Fills {α β : Type} : Prog α β → Prop
  | .ret _ => True
  | .panic _ => True
  | .alloc _ => False
  | .read _ k => ∀ o, (k o).Fills
  | .write _ v k => v ≠ none ∧ k.Fills

theorem Prog.Fills.bind {α β γ : Type} {p : Prog α β} {f : β → Prog α γ} (h : p.Fills)
    (hf : ∀ b, (f b).Fills) : (p.bind f).Fills := by
  induction p with
  | ret b => exact hf b
  | panic e => trivial
  | alloc k ih => exact h.elim
  | read a k ih => exact fun o => ih o (h o)
  | write a v k ih => exact ⟨h.1, ih h.2⟩

theorem Prog.Fills.seq {α β : Type} {ps : List (Prog α β)} (h : ∀ p ∈ ps, p.Fills) :
    (Prog.seq ps).Fills := by
  induction ps with
  | nil => trivial
  | cons p ps ih =>
    exact (h p (by simp)).bind fun b => (ih fun q hq => h q (by simp [hq])).bind fun _ => trivial

theorem Prog.Fills.lift {α β : Type} (r : R β) : (Prog.lift r : Prog α β).Fills := by
  cases r <;> trivial

theorem Prog.Fills.run {β : Type} {p : Prog CellId β} (h : p.Fills) {st st' : Heap} {x : β}
    (he : p.run st = .ok (x, st')) (c : Nat) (hc : st.cell c ≠ none) : st'.cell c ≠ none := by
  induction p generalizing st with
  | ret b => cases he; exact hc
  | panic e => cases he
  | alloc k ih => exact h.elim
  | read a k ih => exact ih _ (h _) he hc
  | write a v k ih =>
    refine ih h.2 he ?_
    show upd st.cell a.id v c ≠ none
    by_cases e : c = a.id
    · subst e; rw [upd_same]; exact h.1
    · rw [upd_other _ _ e]; exact hc

theorem fills_cached {α : Type} {a : α} {p : Prog α EncodedNode} (h : p.Fills) :
    (cached a p).Fills := by
  intro o
  cases o with
  | some x => trivial
  | none =>
    refine h.bind fun e => ?_
    cases e with
    | raw b => trivial
    | hashed x => exact ⟨by simp, trivial⟩

theorem fills_encode {α : Type} (P : Profile) (kec : Bytes → H256) (t : Trie α) :
    (encodeNode P kec t).Fills := by
  induction t with
  | empty a => trivial
  | hash a h => trivial
  | branch a cs v ih =>
    refine Prog.Fills.bind (.seq fun p hp => ?_) fun _ => trivial
    obtain ⟨i, _, rfl⟩ := List.mem_map.1 hp
    exact fills_cached (ih i)
  | ext a n c ih =>
    exact (Prog.Fills.lift _).bind fun _ => (fills_cached ih).bind fun _ => trivial
  | leaf a n v => exact (Prog.Fills.lift _).bind fun _ => trivial

/-- A node whose encoding is a hash leaves it in its cell. -/
theorem cached_fill {a : CellId} {p : Prog CellId EncodedNode} {st st' : Heap} {h : H256}
    (he : (cached a p).run st = .ok (.hashed h, st')) : st'.cell a.id ≠ none := by
  simp only [cached, Prog.run] at he
  cases hg : st.cell a.id with
  | some x =>
    rw [show TrieKind.cacheGet a st = some x from hg] at he
    cases he
    rw [hg]; simp
  | none =>
    rw [show TrieKind.cacheGet a st = none from hg] at he
    obtain ⟨x, s₁, _, e2⟩ := bind_ok_run he
    cases x with
    | raw b => cases e2
    | hashed x =>
      cases e2
      show upd s₁.cell a.id _ a.id ≠ none
      rw [upd_same]; simp

theorem seq_fill {β : Type} {a : β → CellId} {p : β → Prog CellId EncodedNode} {b : β}
    {g : β → EncodedNode} {h : H256} (hg : g b = .hashed h) (hp : ∀ x, (p x).Fills) :
    ∀ (xs : List β) {st st' : Heap}, b ∈ xs →
      (Prog.seq (xs.map fun x => cached (a x) (p x))).run st = .ok (xs.map g, st') →
      st'.cell (a b).id ≠ none := by
  intro xs
  induction xs with
  | nil => intro st st' hb; cases hb
  | cons x xs ih =>
    intro st st' hb he
    simp only [List.map_cons, Prog.seq] at he
    obtain ⟨e, s₁, h1, h2⟩ := bind_ok_run he
    obtain ⟨es, s₂, h3, h4⟩ := bind_ok_run h2
    simp only [Prog.run, Except.ok.injEq, Prod.mk.injEq, List.cons.injEq] at h4
    obtain ⟨⟨rfl, rfl⟩, rfl⟩ := h4
    rcases List.mem_cons.1 hb with rfl | hb
    · rw [hg] at h1
      refine Prog.Fills.run (.seq fun q hq => ?_) h3 _ (cached_fill h1)
      obtain ⟨y, _, rfl⟩ := List.mem_map.1 hq
      exact fills_cached (hp y)
    · exact ih hb h3

/-- `u` is a direct child of `t`. -/
inductive Trie.ChildOf {α : Type} : Trie α → Trie α → Prop
  | branch (a : α) (cs : Fin 16 → Trie α) (v : Bytes) (d : Fin 16) : ChildOf (cs d) (.branch a cs v)
  | ext (a : α) (n : Nibbles) (c : Trie α) : ChildOf c (.ext a n c)

section
variable {kec : Bytes → H256} {P : Profile}

/-- Encoding a node fills the cells of its children whose encodings are hashes. -/
theorem encode_fill {w : HW kec} {t u : Trie CellId} {l lu : LNode} (ht : RepN kec w t l)
    (hu : u.ChildOf t) (hr : RepN kec w u lu) {h : H256} (he : lu.enc kec = .hashed h)
    {x : EncodedNode} {st : Heap} (hx : (encodeNode P kec t).run w.heap = .ok (x, st)) :
    st.cell u.ann.id ≠ none := by
  cases hu with
  | branch a cs v d =>
    cases ht with
    | branch _ _ lcs _ hc ho =>
    have e : lu = lcs d := hr.plain.symm.trans (hc d).plain
    subst e
    obtain ⟨y, s₁, h1, h2⟩ := bind_ok_run hx
    cases h2
    have := (sim_seq (kec := kec) (f := fun i => cached (cs i).ann (encodeNode P kec (cs i)))
      (g := fun i => (lcs i).enc kec) (List.finRange 16) w fun i _ w' hle =>
        sim_cached ((lawsHashed kec).slot_mono hle (ho i)) fun w'' hle' =>
          sim_encode (P := P) (lcs i) _ w'' ((hc i).mono ((lawsHashed kec).ole_trans hle hle'))).run
    obtain ⟨y', w', g1, _, rfl⟩ := this
    have g1 : (Prog.seq ((List.finRange 16).map fun i =>
      cached (cs i).ann (encodeNode P kec (cs i)))).run w.heap = _ := g1
    rw [g1] at h1
    cases h1
    exact seq_fill (a := fun i => (cs i).ann) (p := fun i => encodeNode P kec (cs i))
      (g := fun i => (lcs i).enc kec) he (fun i => fills_encode P kec (cs i)) _
      (List.mem_finRange d) g1
  | ext a n c =>
    cases ht with
    | ext _ k _ lc hk hc ho =>
    have e : lu = lc := hr.plain.symm.trans hc.plain
    subst e
    obtain ⟨y, s₁, h1, h2⟩ := bind_ok_run hx
    obtain ⟨z, s₂, h3, h4⟩ := bind_ok_run h2
    cases h4
    have h1' : s₁ = w.heap := by
      revert h1
      cases (ofList k).toHexPrefixEncoding P false <;> intro h1 <;> cases h1
      rfl
    subst h1'
    obtain ⟨y', w', g1, _, rfl⟩ := (sim_cached (kec := kec) ho fun w' hle =>
      sim_encode (P := P) lu _ w' (hc.mono hle)).run
    have g1 : (cached u.ann (encodeNode P kec u)).run w.heap = _ := g1
    rw [he] at g1
    rw [g1] at h3
    cases h3
    exact cached_fill g1

/-- C52 for clones of inner nodes of `HashedPartialTrie`, which share their cells with the nodes: let
`u` be a clone of a direct child of `t`, and let something be inserted into it.  Then it has the right
hash.  But if the child is encoded in its parent by a hash, then after `t` has been hashed (the result
is right) the changed clone has the hash of the child before the change; otherwise it still has the
right hash. -/
theorem C52_clone {M : Mode} {s : Sys Kind.hashed.Ann Kind.hashed.State} {i : Nat}
    {t u u' : Trie CellId} {k : Key} {v : ValOrHash} {st₁ st₂ : Heap} {x : H256}
    (h : Live .hashed M P kec s) (hi : s.hs[i]? = some t) (hu : u.ChildOf t)
    (hc : TrieKind.cacheGet t.ann s.state = none) (hk : k.length ≤ 127)
    (e₁ : u.insert P (ofList k) v s.state = .ok (u', st₁))
    (e₂ : t.rootHash P kec st₁ = .ok (x, st₂)) :
    (t.bare.rootHash P kec ()).map (·.1) = .ok x ∧
    (u'.rootHash P kec st₁).map (·.1) = (u'.bare.rootHash P kec ()).map (·.1) ∧
    (u'.rootHash P kec st₂).map (·.1) = match u.refer P kec with
      | .ok (.hashed y) => .ok y
      | _ => (u'.bare.rootHash P kec ()).map (·.1) := by
  obtain ⟨w, p, Z, h1, _⟩ := h.inv.ex
  have hN : ∃ q, t.NodeAt q u ∧ q ≠ [] := by
    have hP := h.node hi (.here t)
    cases hu with
    | branch a cs v d => exact ⟨[d], .branch _ _ _ _ _ _ (.here _), by simp⟩
    | ext a n c =>
      refine ⟨n.toList ++ [], .ext _ _ _ _ _ (.here _), ?_⟩
      obtain ⟨l, f, hz⟩ := h1.zip hi
      have hok := h1.ok _ (List.mem_of_getElem? hz)
      have hr : RepN (L := Kind.laws kec .hashed) kec w (.ext a n u) l := hok.rep
      have hx : l.ExtOK := hok.ext
      cases hr with
      | ext _ k _ lc hk hc ho =>
        rw [toList_ofList (by omega)]
        simpa using hx.1
  obtain ⟨q, hq, hq0⟩ := hN
  have hPt := h.node hi (.here t)
  have hPu := h.node hi hq
  obtain ⟨l, f, hz⟩ := h1.zip hi
  have hok := h1.ok _ (List.mem_of_getElem? hz)
  obtain ⟨lu, hr, _, hb, hx, hs⟩ := h1.nodeAt hi hq
  rcases hs with ⟨hq', _⟩ | hs
  · exact absurd hq' hq0
  have elu : u.plain = lu := hr.plain
  obtain ⟨u₁, w₁, g1, g2, g3⟩ : ∃ u₁ w₁, (trieInsert P u (ofList k) v).run w.heap = .ok (u₁, w₁.heap) ∧
      (lawsHashed kec).le w w₁ ∧ ∃ l₁, RepN kec w₁ u₁ l₁ ∧ u₁.ann = u.ann := by
    have := (sim_trieInsert (P := P) (kec := kec) (v := v) hr hb hk).run
    revert this
    cases hl : lu.insert k v with
    | error e =>
      intro this
      have e0 := bind_ok_run (show ((trieInsert P u (ofList k) v).bind _).run s.state = _ from e₁)
      obtain ⟨y, s₁, h2, _⟩ := e0
      rw [h1.state] at h2
      rw [show (trieInsert P u (ofList k) v).run ((Kind.laws kec .hashed).st w) = _ from this] at h2
      cases h2
    | ok l₁ =>
      rintro ⟨u₁, w₁, k1, k2, k3⟩
      exact ⟨u₁, w₁, k1, k2, l₁, k3⟩
  obtain ⟨l₁, g3, g4⟩ := g3
  -- the state after the insertion
  obtain ⟨y, s₁, h2, h3⟩ := bind_ok_run (show ((trieInsert P u (ofList k) v).bind _).run s.state = _ from e₁)
  rw [h1.state, show (trieInsert P u (ofList k) v).run ((Kind.laws kec .hashed).st w) = _ from g1] at h2
  cases h2
  cases h3
  let w₂ : HW kec := ⟨⟨w₁.heap.next, upd w₁.heap.cell u'.ann.id none⟩, w₁.own, fun c z m hz hm => by
    by_cases e : c = u'.ann.id
    · subst e; simp only [upd_same] at hz; cases hz
    · simp only [upd_other _ _ e] at hz; exact w₁.ok c z m hz hm⟩
  have hle : (lawsHashed kec).ole w₁ w₂ := ⟨Nat.le_refl _, fun _ _ => rfl⟩
  have hle' : (lawsHashed kec).ole w w₂ :=
    (lawsHashed kec).ole_trans ((lawsHashed kec).ole_of_le g2) hle
  have rt : RepN kec w₂ t l := hok.rep.omono hle'
  have ru : RepN kec w₂ u lu := hr.omono hle'
  have ru' : RepN kec w₂ u' l₁ := g3.omono hle
  have hs₂ : (lawsHashed kec).slot w₂ u.ann (some lu) := (lawsHashed kec).slot_mono hle' hs
  have hPu' : u'.Plain kec := by rw [Trie.Plain, ru'.plain]; exact repN_bare ru'
  have ne : t.ann ≠ u.ann := by
    intro e
    have a1 : w.own t.ann.id = none := hok.slot.2
    have a2 : w.own u.ann.id = some lu := hs.2
    rw [e, a2] at a1
    cases a1
  have ct : w₂.heap.cell t.ann.id = none := by
    have := (lawsHashed kec).get_set_ne (a := u.ann) (b := t.ann) none w₁.heap ne
    have h5 : w₁.heap.cell t.ann.id = w.heap.cell t.ann.id := (lawsHashed kec).le_cell g2 hok.slot
    have h6 : w.heap.cell t.ann.id = none := by rw [h1.state] at hc; exact hc
    have h7 : upd w₁.heap.cell u.ann.id none t.ann.id = w₁.heap.cell t.ann.id := this
    show upd w₁.heap.cell u'.ann.id none t.ann.id = none
    rw [g4, h7, h5, h6]
  have cu : w₂.heap.cell u'.ann.id = none := upd_same _ _ _
  -- hashing
  obtain ⟨z, w₃, k1, k2, k3⟩ := run_rootHash (P := P) rt
  have k1 : (t.rootHash P kec).run w₂.heap = .ok (z, w₃.heap) := k1
  have e₂' : (t.rootHash P kec).run w₂.heap = .ok (x, st₂) := e₂
  rw [k1] at e₂'
  cases e₂'
  rw [show TrieKind.cacheGet t.ann ((lawsHashed kec).st w₂) = none from ct] at k3
  refine ⟨?_, ?_, ?_⟩
  · rw [hPt.hash, k3, rt.plain]; rfl
  · obtain ⟨z', w₄, m1, _, m3⟩ := run_rootHash (P := P) ru'
    rw [show TrieKind.cacheGet u'.ann ((lawsHashed kec).st w₂) = none from cu] at m3
    have m1 : (u'.rootHash P kec).run w₂.heap = .ok (z', w₄.heap) := m1
    rw [hPu'.hash, ru'.plain]
    show Except.map _ ((u'.rootHash P kec).run w₂.heap) = _
    rw [m1, m3]; rfl
  · have ru3 : RepN kec w₃ u' l₁ := ru'.omono ((lawsHashed kec).ole_of_le k2)
    have hs₃ := (lawsHashed kec).slot_mono ((lawsHashed kec).ole_of_le k2) hs₂
    obtain ⟨z', w₄, m1, _, m3⟩ := run_rootHash (P := P) ru3
    have m1 : (u'.rootHash P kec).run w₃.heap = .ok (z', w₄.heap) := m1
    rw [hPu.refer, elu, m1, hPu'.hash, ru'.plain]
    simp only [Except.map]
    have hcu : TrieKind.cacheGet u'.ann ((lawsHashed kec).st w₃) =
        TrieKind.cacheGet u.ann ((lawsHashed kec).st w₃) := by rw [g4]
    rw [hcu] at m3
    cases he : lu.enc kec with
    | raw b =>
      cases hg : TrieKind.cacheGet u.ann ((lawsHashed kec).st w₃) with
      | none => rw [hg] at m3; rw [m3]; rfl
      | some y => have := (lawsHashed kec).get_ok hs₃ hg; rw [he] at this; cases this
    | hashed y =>
      have hfill : w₃.heap.cell u.ann.id ≠ none := by
        have k1' := k1
        unfold Trie.rootHash hashProg at k1'
        simp only [Prog.run] at k1'
        rw [show TrieKind.cacheGet t.ann w₂.heap = none from ct] at k1'
        obtain ⟨en, s₅, q1, q2⟩ := bind_ok_run k1'
        cases q2
        exact encode_fill rt hu ru he q1
      cases hg : TrieKind.cacheGet u.ann ((lawsHashed kec).st w₃) with
      | none => exact absurd hg hfill
      | some y' =>
        have := (lawsHashed kec).get_ok hs₃ hg
        rw [he] at this
        cases this
        rw [hg] at m3
        rw [m3]; rfl

end

/-- What the steps of a program with sub-tries return. -/
def Kind.obsN (K : Kind) (P : Profile) (kec : Bytes → H256) (cs : List NCmd) : R (List Obs) :=
  (K.runN P kec cs).map (·.2)

/-- Two keys; a clone of the leaf for the first one is changed, then the trie and the clone are
hashed. -/
def cloneProg : List NCmd :=
  [.call (.fromIter [([1, 2], .val (List.replicate 40 7)), ([2, 2], .val (List.replicate 40 9))]),
    .share 0 [1], .call (.insert 1 [2] (.val (List.replicate 50 8))), .call (.hash 1),
    .call (.hash 0), .call (.hash 1)]

/-- C52 fails for clones of inner nodes: without any change in between, the clone has another hash
after the trie has been hashed. -/
theorem C52_false : ∀ (P : Profile) (kec : Bytes → H256), ∃ a b c : Bytes, a ≠ c ∧
    Kind.standard.obsN P kec cloneProg = .ok [.unit, .unit, .unit, .root (kec a), .root (kec b),
      .root (kec a)] ∧
    Kind.hashed.obsN P kec cloneProg = .ok [.unit, .unit, .unit, .root (kec a), .root (kec b),
      .root (kec c)] := by
  intro ⟨P⟩
  refine spelled fun f => ⟨244 :: 50 :: 178 :: List.replicate 50 8, 248 :: 81 :: 128 :: 160 ::
    (spell (f (234 :: 50 :: 168 :: List.replicate 40 7))).toList ++ 160 ::
    (spell (f (234 :: 50 :: 168 :: List.replicate 40 9))).toList ++ List.replicate 14 128,
    234 :: 50 :: 168 :: List.replicate 40 7, ?_, ?_, ?_⟩
  · exact fun h => absurd (List.head_eq_of_cons_eq h) (by decide)
  all_goals cases P <;> kernel_rfl

/-- The same program, but with a new trie made from the node of the leaf instead of a clone. -/
example : ∀ P : Profile, Kind.hashed.obsN P kec0 (cloneProg.map fun
      | .share i q => .take i q
      | c => c) = .ok [.unit, .unit, .unit, .root (Vector.replicate 32 53),
      .root (Vector.replicate 32 83), .root (Vector.replicate 32 53)] := by
  intro ⟨P⟩; cases P <;> decide +kernel

/-- A case of `C52_fresh` and `C52_partial`: the sub-trie at `1` is equal to the trie built from what is
below it, and so are their hashes; changing one does not change the other or the whole. -/
example : ∀ K : Kind, ∀ P : Profile, ∃ x y z, K.obsN P kec0
    [.call (.fromIter [([1, 2], .val (List.replicate 40 7)), ([1, 3, 4], .val [8]), ([2], .val [9, 9, 9])]),
      .call (.fromIter [([2], .val (List.replicate 40 7)), ([3, 4], .val [8])]), .take 0 [1],
      .call (.eq 1 2), .call (.hash 1), .call (.hash 2), .call (.hash 0),
      .call (.insert 2 [5] (.val [1])), .call (.eq 1 2), .call (.hash 0), .call (.hash 1),
      .call (.hash 2), .take 0 [2, 2]] =
    .ok [.unit, .unit, .unit, .bool true, .root x, .root x, .root y, .unit, .bool false, .root y,
      .root x, .root z, .noHandle] ∧ x ≠ y ∧ x ≠ z := by
  intro K ⟨P⟩
  refine ⟨Vector.replicate 32 52, Vector.replicate 32 55, Vector.replicate 32 54, ?_⟩
  cases K <;> cases P <;> decide +kernel

/-! ## C53 -/

section
variable {K : Kind} {M : Mode} {P : Profile} {kec : Bytes → H256} {s : Sys K.Ann K.State}
  {i j : Nat} {t t' u : Trie K.Ann} {q : Key}

/-- C53: overwriting the node of a trie replaces what `get`, `items` and `==` see, but `hash()`
returns what is in the cell of the overwritten trie, or if there is nothing the right hash. -/
theorem C53_assign (h : Live K M P kec s) (hi : s.hs[i]? = some t) (hj : s.hs[j]? = some t')
    (hu : t'.nodeAt? q = some u) : ∃ s' v, s.execN P kec (.assign i j q) = .ok (s', .unit) ∧
      s'.hs[i]? = some v ∧ (∀ m, m ≠ i → s'.hs[m]? = s.hs[m]?) ∧ v.bare = u.bare ∧
      (∀ k, v.get P k = u.get P k) ∧ v.items P = u.items P ∧
      (v.rootHash P kec s'.state).map (·.1) = match K.trieKind.cacheGet t.ann s.state with
        | some x => .ok x
        | none => (u.bare.rootHash P kec ()).map (·.1) := by
  have hn := nodeAt?_nodeAt hu
  have hlt : i < s.hs.length := (List.getElem?_eq_some_iff.1 hi).1
  refine ⟨⟨s.state, s.hs.set i (u.setAnn t.ann)⟩, u.setAnn t.ann, ?_, by simp [hlt],
    fun m hm => by simp [List.getElem?_set, Ne.symm hm], bare_setAnn _ _, ?_, ?_, ?_⟩
  · simp only [Sys.execN, Sys.onNode, exec_on hi, exec_on hj, hu]
  · intro k; cases u <;> rfl
  · obtain ⟨w, p, Z, h1, _⟩ := h.inv.ex
    obtain ⟨l, hr, _, hb, hx, _⟩ := h1.nodeAt hj hn
    rw [items_exact (L := Kind.laws kec K) (hr.setAnn _) hx, items_exact (L := Kind.laws kec K) hr hx]
  · have hP := (h.node hj hn).hash (P := P)
    obtain ⟨w, p, Z, h1, _⟩ := h.inv.ex
    obtain ⟨l, hr, _⟩ := h1.nodeAt hj hn
    obtain ⟨x, w', g1, _, g3⟩ := run_rootHash (L := Kind.laws kec K) (P := P) (hr.setAnn t.ann)
    rw [ann_setAnn] at g3
    subst g3
    rw [hP, h1.state, g1, hr.plain]
    simp only [Except.map]
    cases K.trieKind.cacheGet t.ann ((Kind.laws kec K).st w) <;> rfl

/-- C53: if no subset for no keys is made, or with `StandardTrie`, the hash is right.  Missing: tries
with a filled root cell, see `C53_false` and `C53_assign`. -/
theorem C53_partial (hK : K = .standard ∨ M = .noEmptySubset) (h : Live K M P kec s)
    (hi : s.hs[i]? = some t) :
    (t.rootHash P kec s.state).map (·.1) = (t.bare.rootHash P kec ()).map (·.1) := by
  rw [C52_handle h hi]
  suffices e : K.trieKind.cacheGet t.ann s.state = none by rw [e]
  cases K with
  | standard => rfl
  | hashed =>
    have hM : M = .noEmptySubset := by simpa using hK
    subst hM
    obtain ⟨w, p, Z, h1, h2⟩ := h.inv.ex
    obtain ⟨f, _, e⟩ := h1.handle hi
    rw [← e]
    exact h2 rfl f

example (K : Kind) (P : Profile) : ((caseT K P 0).rootHash P kec0 (caseS K P).state).map (·.1) =
    ((caseT K P 0).bare.rootHash P kec0 ()).map (·.1) :=
  C53_partial (.inr rfl) (caseLive K P) (caseGet K P (by decide))

/-- C53: inserting into a trie whose node was overwritten makes its hash right again. -/
theorem C53_insert (h : Live K M P kec s) (hi : s.hs[i]? = some t) {k : Key} (hk : k.length ≤ 127)
    {v : ValOrHash} {t₁ : Trie K.Ann} {st : K.State}
    (he : t.insert P (ofList k) v s.state = .ok (t₁, st)) :
    (t₁.rootHash P kec st).map (·.1) = (t₁.bare.rootHash P kec ()).map (·.1) := by
  have hx : s.execN P kec (.call (.insert i k v)) = .ok (⟨st, s.hs.set i t₁⟩, .unit) := by
    simp only [Sys.execN, Sys.exec, exec_on hi, he, R_bind_ok]; rfl
  have hlt : i < s.hs.length := (List.getElem?_eq_some_iff.1 hi).1
  have hn : LiveInv K .any kec ⟨st, s.hs.set i t₁⟩ := by
    obtain ⟨w, p, Z, h1, _⟩ := h.inv.ex
    exact LiveInv.stepN (M := .any) ⟨w, p, Z, h1, fun _ => trivial⟩ (c := .call (.insert i k v)) hk
      (by cases K <;> trivial) trivial hx
  obtain ⟨w, p, Z, h1, _⟩ := hn.ex
  have hi' : (⟨st, s.hs.set i t₁⟩ : Sys K.Ann K.State).hs[i]? = some t₁ := by simp [hlt]
  obtain ⟨l, f, hz⟩ := h1.zip hi'
  have hok := h1.ok _ (List.mem_of_getElem? hz)
  have hP : t₁.Plain kec := by
    rw [Trie.Plain, show t₁.plain = l from hok.rep.plain]; exact repN_bare hok.rep
  have hc : K.trieKind.cacheGet t₁.ann st = none := by
    obtain ⟨y, s₁, _, h3⟩ := bind_ok_run (show ((trieInsert P t (ofList k) v).bind _).run s.state = _ from he)
    cases K with
    | standard => rfl
    | hashed => cases h3; exact upd_same _ _ _
  obtain ⟨x, w', g1, _, g3⟩ := run_rootHash (L := Kind.laws kec K) (P := P) hok.rep
  have e : st = (Kind.laws kec K).st w := h1.state
  rw [hP.hash, e, g1, g3, ← e]
  simp only [Except.map, hc, show t₁.plain = l from hok.rep.plain]
  rfl

example (K : Kind) (P : Profile) {t₁ : Trie K.Ann} {st : K.State}
    (he : (caseT K P 0).insert P (ofList [1, 2]) (.val [6]) (caseS K P).state = .ok (t₁, st)) :
    (t₁.rootHash P kec0 st).map (·.1) = (t₁.bare.rootHash P kec0 ()).map (·.1) :=
  C53_insert (caseLive K P) (caseGet K P (by decide)) (by decide) he

end

/-- A trie whose root cell was filled by making a subset for no keys; its node is overwritten by that
of another trie. -/
def assignProg : List NCmd :=
  [.call (.fromIter [([1, 2], .val (List.replicate 40 7))]),
    .call (.fromIter [([1, 2], .val (List.replicate 50 8))]), .call (.subset 0 []), .assign 0 1 [],
    .call (.eq 0 1), .call (.hash 0), .call (.hash 1)]

/-- C53 fails: the two tries are equal and have different hashes. -/
theorem C53_false : ∀ (P : Profile) (kec : Bytes → H256), ∃ a b : Bytes, a ≠ b ∧
    Kind.standard.obsN P kec assignProg = .ok [.unit, .unit, .unit, .unit, .bool true,
      .root (kec a), .root (kec a)] ∧
    Kind.hashed.obsN P kec assignProg = .ok [.unit, .unit, .unit, .unit, .bool true,
      .root (kec b), .root (kec a)] := by
  intro ⟨P⟩ kec
  refine ⟨246 :: 130 :: 32 :: 18 :: 178 :: List.replicate 50 8,
    236 :: 130 :: 32 :: 18 :: 168 :: List.replicate 40 7, ?_, ?_, ?_⟩
  · exact fun h => absurd (List.head_eq_of_cons_eq h) (by decide)
  all_goals cases P <;> kernel_rfl

end EthTrie
