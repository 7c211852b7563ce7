import Verif.Serde.Load
import Verif.Subset.Batch
import Verif.Sys.BuildModel

/-!
# Programs that look inside tries

A trie dereferences to its node (`Deref`, `DerefMut`: `src/partial_trie.rs:260-272, 388-401`), and a
node gives access to the sub-tries below it (its fields are public, `src/partial_trie.rs:120-144`).
So besides the calls of `Verif/Sys/Model.lean` a program can

* clone a sub-trie: `(**child).clone()`, which shares the cache cell with the inner node,
* make a new trie from the node of a sub-trie: `N::from((***child).clone())`
  (`src/partial_trie.rs:20-28`; `new` at `202-204, 312-317`), which has a new cell,
* overwrite the node of a trie: `*t = (***child).clone()`, which keeps the cell of `t`,
* make nodes of new nodes and parts of tries (`Verif/Sys/BuildModel.lean`), make a new trie from such
  a node, and overwrite the node of a trie with one,
* read a trie from serialised data (`src/partial_trie.rs:117, 196, 287`), as long as the result is sound,
  and try to read one and drop the result.
-/

namespace EthTrie

open Spec KMap LNode Nibbles

theorem nodeAt?_nodeAt {α : Type} {t u : Trie α} {q : Key} (h : t.nodeAt? q = some u) :
    t.NodeAt q u := by
  induction t generalizing q with
  | branch a cs v ih =>
    cases q with
    | nil => simp only [Trie.nodeAt?, Option.some.injEq] at h; subst h; exact .here _
    | cons d q => exact .branch _ _ _ _ _ _ (ih d h)
  | ext a n c ih =>
    cases q with
    | nil => simp only [Trie.nodeAt?, Option.some.injEq] at h; subst h; exact .here _
    | cons d q =>
      simp only [Trie.nodeAt?] at h
      split at h
      · rename_i hp
        have e := List.prefix_iff_eq_append.1 hp
        rw [← e]
        exact .ext _ _ _ _ _ (ih h)
      · cases h
  | _ =>
    cases q with
    | nil => simp only [Trie.nodeAt?, Option.some.injEq] at h; subst h; exact .here _
    | cons d q => simp [Trie.nodeAt?] at h

/-- Calls, and access to nodes (through `src/partial_trie.rs:260-272, 389-401`). -/
inductive NCmd where
  /-- any call of the trie interface -/
  | call (c : Cmd)
  /-- `(**child).clone()`, where `child` is found at `q` below handle `i` -/
  | share (i : Nat) (q : Key)
  /-- `N::from((***child).clone())` -/
  | take (i : Nat) (q : Key)
  /-- `*t = (***child).clone()`, where `t` is handle `i` and `child` is found at `q` below handle `j` -/
  | assign (i j : Nat) (q : Key)
  /-- `N::new(node)` -/
  | build (n : BNode)
  /-- `*t = node`, where `t` is handle `i`; changing some of the fields of the node of `t` in place has
  the same outcome as assigning a node with the other fields cloned -/
  | edit (i : Nat) (n : BNode)

section
variable {α S : Type} [K : TrieKind α S] (P : Profile) (kec : Bytes → H256)

/-- Do something with a sub-trie of a handle. -/
def Sys.onNode (s : Sys α S) (i : Nat) (q : Key) (f : Trie α → R (Sys α S × Obs)) :
    R (Sys α S × Obs) :=
  s.on i fun t => match t.nodeAt? q with
    | none => .ok (s, .noHandle)
    | some u => f u

/-- One step of a program that looks inside tries (`src/partial_trie.rs:20-28, 202-204, 260-272,
312-317, 388-401`). -/
def Sys.execN (s : Sys α S) : NCmd → R (Sys α S × Obs)
  | .call c => s.exec P kec c
  | .share i q => s.onNode i q fun u => .ok (⟨s.state, s.hs ++ [u]⟩, .unit)
  | .take i q => s.onNode i q fun u =>
    .ok (⟨(K.alloc s.state).2, s.hs ++ [u.setAnn (K.alloc s.state).1]⟩, .unit)
  | .assign i j q => s.on i fun t => s.onNode j q fun u =>
    .ok (⟨s.state, s.hs.set i (u.setAnn t.ann)⟩, .unit)
  | .build n => do
    let (o, st) ← (n.eval s.hs).run s.state
    match o with
    | none => return (s, .noHandle)
    | some f => return (⟨(K.alloc st).2, s.hs ++ [f (K.alloc st).1]⟩, .unit)
  | .edit i n => s.on i fun t => do
    let (o, st) ← (n.eval s.hs).run s.state
    match o with
    | none => return (s, .noHandle)
    | some f => return (⟨st, s.hs.set i (f t.ann)⟩, .unit)

/-- The nodes that are made are well-formed. -/
def Sys.WellMade (s : Sys α S) : NCmd → Prop
  | .build n => ∀ f st, (n.eval s.hs).run s.state = .ok (some f, st) → ∀ a, (f a).Formed 127
  | .edit _ n => ∀ f st, (n.eval s.hs).run s.state = .ok (some f, st) → ∀ a, (f a).Formed 127
  | _ => True

/-- The nodes that are made by a program are well-formed. -/
def Sys.AllMade (s : Sys α S) : List NCmd → Prop
  | [] => True
  | c :: cs => s.WellMade c ∧ ∀ s' o, s.execN P kec c = .ok (s', o) → s'.AllMade cs

/-- A sequence of steps. -/
def Sys.runN (s : Sys α S) : List NCmd → R (Sys α S × List Obs)
  | [] => .ok (s, [])
  | c :: cs => do
    let (s', o) ← s.execN P kec c
    let (s'', os) ← Sys.runN s' cs
    return (s'', o :: os)

end

/-- A whole program. -/
def Kind.runN (K : Kind) (P : Profile) (kec : Bytes → H256) (cs : List NCmd) :
    R (Sys K.Ann K.State × List Obs) := K.start.runN P kec cs

/-- Keys of at most 127 nibbles. -/
def NCmd.Short : NCmd → Prop
  | .call c => c.Short
  | _ => True

/-- The steps that are permitted; for `StandardTrie` all of them.  With caches, clones of inner nodes
are not, clones of handles may not be used as children, and nodes may not be overwritten if cells of
roots may be filled. -/
def permittedN : Kind → Mode → NCmd → Prop
  | .standard, _, _ => True
  | .hashed, M, .call c => permitted .hashed M c
  | .hashed, _, .share _ _ => False
  | .hashed, _, .take _ _ => True
  | .hashed, M, .assign _ _ _ => M ≠ .noClone
  | .hashed, _, .build n => n.Inner
  | .hashed, M, .edit _ n => n.Inner ∧ M ≠ .noClone

/-! ### Sub-tries -/

section
variable {kec : Bytes → H256} {α S : Type} [K : TrieKind α S] [L : KindLaws kec α S] {w : L.W}

theorem LNode.At.bound {l u : LNode} {q : Key} (h : At l q u) {b : Nat} (hb : l.Bound b) : u.Bound b := by
  induction h with
  | here l => exact hb
  | branch cs v d q u h ih => exact ih ((hb.2 d).mono (by omega))
  | ext n c q u h ih => exact ih (hb.2.mono (by omega))

theorem LNode.At.extOK {l u : LNode} {q : Key} (h : At l q u) (hb : l.ExtOK) : u.ExtOK := by
  induction h with
  | here l => exact hb
  | branch cs v d q u h ih => exact ih (hb d)
  | ext n c q u h ih => exact ih hb.2.2

theorem LNode.At.abs {l u : LNode} {q : Key} (h : At l q u) : absL u = (absL l).sub q := by
  induction h with
  | here l => rfl
  | branch cs v d q u h ih => rw [ih]; funext r; simp [KMap.sub]
  | ext n c q u h ih => rw [ih]; funext r; simp [KMap.sub, List.append_assoc]

/-- Sub-tries are represented; proper ones have cells of inner nodes. -/
theorem RepN.nodeAt {t u : Trie α} {q : Key} (hu : t.NodeAt q u) {l : LNode} (h : RepN kec w t l) :
    ∃ l', RepN kec w u l' ∧ At l q l' ∧ ((q = [] ∧ u = t ∧ l' = l) ∨ L.slot w u.ann (some l')) := by
  induction hu generalizing l with
  | here t => exact ⟨l, h, .here _, .inl ⟨rfl, rfl, rfl⟩⟩
  | branch a cs v d q u hu ih =>
    cases h with
    | branch _ _ lcs _ h ho =>
      obtain ⟨l', h1, h2, h3⟩ := ih (h d)
      refine ⟨l', h1, .branch _ _ _ _ _ h2, .inr ?_⟩
      rcases h3 with ⟨rfl, rfl, rfl⟩ | h3
      · exact ho d
      · exact h3
  | ext a n c q u hu ih =>
    cases h with
    | ext _ k _ lc hk h ho =>
      obtain ⟨l', h1, h2, h3⟩ := ih h
      rw [toList_ofList (by omega)]
      refine ⟨l', h1, .ext _ _ _ _ h2, .inr ?_⟩
      rcases h3 with ⟨rfl, rfl, rfl⟩ | h3
      · exact ho
      · exact h3

/-! ### The invariant is kept -/

variable {s : Sys α S} {p : PSys} {Z : List (Trie α × LNode × Nat)}

/-- A handle gets new contents and keeps its cell. -/
theorem Inv.assign {t u : Trie α} {l l' : LNode} {f i : Nat} (h : Inv kec w s p Z)
    (hi : Z[i]? = some (t, l, f)) (hr : RepN kec w u l') (hb : l'.Bound 127) (he : l'.ExtOK) :
    Inv kec w ⟨s.state, s.hs.set i (u.setAnn t.ann)⟩ ⟨p.hs.set i (l', f), p.filled, p.next⟩
      (Z.set i (u.setAnn t.ann, l', f)) := by
  have hmem : (t, l, f) ∈ Z := List.mem_of_getElem? hi
  have old := h.ok _ hmem
  have hset : ∀ a ∈ Z.set i (u.setAnn t.ann, l', f), a = (u.setAnn t.ann, l', f) ∨ a ∈ Z := by
    intro a ha
    rcases List.mem_or_eq_of_mem_set ha with h | h
    · exact .inr h
    · exact .inl h
  have key : ∀ a ∈ Z.set i (u.setAnn t.ann, l', f), ∃ b ∈ Z, b.1.ann = a.1.ann ∧ b.2.2 = a.2.2 := by
    intro a hain
    rcases hset a hain with rfl | haZ
    · exact ⟨_, hmem, (ann_setAnn _ _).symm, rfl⟩
    · exact ⟨a, haZ, rfl, rfl⟩
  refine ⟨h.state, by simp [h.hs, List.map_set], by simp [h.phs, List.map_set], ?_, ?_, ?_, h.above⟩
  · intro a hain
    rcases hset a hain with rfl | haZ
    · refine ⟨hr.setAnn _, ?_, hb, he, old.fam, ?_⟩
      · simp only [ann_setAnn]; exact old.slot
      · simp only [ann_setAnn]; exact old.cell
    · exact h.ok a haZ
  · intro a haa b hbb e
    obtain ⟨a', ha', ea1, ea2⟩ := key a haa
    obtain ⟨b', hb', eb1, eb2⟩ := key b hbb
    rw [← ea1, ← eb1]
    exact h.share a' ha' b' hb' (by rw [ea2, eb2, e])
  · intro hR a haa b hbb e
    obtain ⟨a', ha', ea1, ea2⟩ := key a haa
    obtain ⟨b', hb', eb1, eb2⟩ := key b hbb
    rw [← ea2, ← eb2]
    exact h.sep hR a' ha' b' hb' (by rw [ea1, eb1, e])

/-- A new trie with a node that there is already. -/
theorem Inv.take {u : Trie α} {l' : LNode} (h : Inv kec w s p Z) (hr : RepN kec w u l')
    (hb : l'.Bound 127) (he : l'.ExtOK) :
    ∃ w', L.le w w' ∧ Inv kec w' ⟨(K.alloc s.state).2, s.hs ++ [u.setAnn (K.alloc s.state).1]⟩
      ⟨p.hs ++ [(l', p.next)], p.filled, p.next + 1⟩
      (Z ++ [(u.setAnn (K.alloc s.state).1, l', p.next)]) := by
  obtain ⟨w', h1, h2, h3, h4⟩ := L.alloc_ok w none
  rw [h.state]
  have h5 := h.step_le h1
  refine ⟨w', h1, ?_⟩
  have := h5.push1 (w0 := w) (fun a ha => ⟨_, (h.ok a ha).slot⟩)
    (t := u.setAnn (K.alloc (L.st w)).1) (l := l')
    ⟨(hr.omono (L.ole_of_le h1)).setAnn _, by simpa using h3, by simpa using h4,
      fun hR b o ho => by simpa using L.fresh hR ho⟩ hb he
  rw [h2] at this
  exact this

end

variable {K : Kind} {M : Mode} {P : Profile} {kec : Bytes → H256} {s : Sys K.Ann K.State}

theorem Inv.zip {w p Z} (h : Inv (L := Kind.laws kec K) kec w s p Z) {i : Nat} {t : Trie K.Ann}
    (hi : s.hs[i]? = some t) : ∃ l f, Z[i]? = some (t, l, f) := by
  rw [h.hs, List.getElem?_map] at hi
  cases ha : Z[i]? with
  | none => rw [ha] at hi; cases hi
  | some a => rw [ha] at hi; cases hi; exact ⟨a.2.1, a.2.2, rfl⟩

theorem Inv.nodeAt {w p Z} (h : Inv (L := Kind.laws kec K) kec w s p Z) {i : Nat} {t u : Trie K.Ann}
    {q : Key} (hi : s.hs[i]? = some t) (hu : t.NodeAt q u) :
    ∃ l', RepN (L := Kind.laws kec K) kec w u l' ∧ At t.plain q l' ∧ l'.Bound 127 ∧ l'.ExtOK ∧
      ((q = [] ∧ u = t ∧ l' = t.plain) ∨ (Kind.laws kec K).slot w u.ann (some l')) := by
  obtain ⟨l, f, hz⟩ := h.zip hi
  have hok := h.ok _ (List.mem_of_getElem? hz)
  obtain ⟨l', h1, h2, h3⟩ := hok.rep.nodeAt hu
  have e : t.plain = l := hok.rep.plain
  rw [e]
  exact ⟨l', h1, h2, h2.bound hok.bound, h2.extOK hok.ext, h3⟩

theorem LiveInv.take (h : LiveInv K M kec s) {i : Nat} {t u : Trie K.Ann} {q : Key}
    (hi : s.hs[i]? = some t) (hu : t.NodeAt q u) :
    LiveInv K M kec ⟨(K.trieKind.alloc s.state).2, s.hs ++ [u.setAnn (K.trieKind.alloc s.state).1]⟩ := by
  obtain ⟨w, p, Z, h1, h2⟩ := h.ex
  obtain ⟨l', g1, _, g3, g4, _⟩ := h1.nodeAt hi hu
  obtain ⟨w', k1, k2⟩ := h1.take g1 g3 g4
  refine ⟨w', _, _, k2, fun hK => ?_⟩
  have h2 := h2 hK
  cases M with
  | noClone => exact PSys.Own.push h2 [l']
  | noEmptySubset => exact h2
  | any => trivial

theorem setAnn_unit (t : Trie Unit) (a : Unit) : t.setAnn a = t := by cases t <;> rfl

theorem onNode_cases {α S : Type} {s s' : Sys α S} {i : Nat} {q : Key} {o : Obs}
    {f : Trie α → R (Sys α S × Obs)} (h : s.onNode i q f = .ok (s', o)) :
    s' = s ∨ ∃ t u, s.hs[i]? = some t ∧ t.NodeAt q u ∧ f u = .ok (s', o) := by
  unfold Sys.onNode Sys.on at h
  cases hi : s.hs[i]? with
  | none => rw [hi] at h; cases h; exact .inl rfl
  | some t =>
    rw [hi] at h
    simp only at h
    cases hn : t.nodeAt? q with
    | none => rw [hn] at h; cases h; exact .inl rfl
    | some u => rw [hn] at h; exact .inr ⟨t, u, rfl, nodeAt?_nodeAt hn, h⟩

theorem bind_ok_run {α S β γ : Type} [TrieKind α S] {p : Prog α β} {f : β → Prog α γ} {s s' : S}
    {y : γ} (h : (p.bind f).run s = .ok (y, s')) :
    ∃ x s₁, p.run s = .ok (x, s₁) ∧ (f x).run s₁ = .ok (y, s') := by
  have e := Prog.bind_run p f s
  rw [show (p >>= f) = p.bind f from rfl, h] at e
  rcases hp : p.run s with e' | ⟨x, s₁⟩
  · rw [hp] at e; cases e
  · rw [hp] at e; exact ⟨x, s₁, rfl, e.symm⟩

/-! ### Assembled nodes -/

theorem collect_worlds {L : KindLaws kec K.Ann K.State} {β : Type} {w0 : L.W} :
    ∀ {n : Nat} {p : Fin n → Prog K.Ann β} {Q : Fin n → L.W → Prop} {f : Fin n → β},
    (∀ i {w w'}, L.ole w w' → Q i w → Q i w') →
    (∀ i w σ, L.le w0 w → (p i).run (L.st w) = .ok (f i, σ) →
      ∃ w', L.st w' = σ ∧ L.le w w' ∧ Q i w') →
    ∀ {w σ}, L.le w0 w → (Prog.collect n p).run (L.st w) = .ok (f, σ) →
      ∃ w', L.st w' = σ ∧ L.le w w' ∧ ∀ i, Q i w' := by
  intro n
  induction n with
  | zero =>
    intro p Q f _ _ w σ _ h
    cases h
    exact ⟨w, rfl, L.le_refl _, fun i => i.elim0⟩
  | succ n ih =>
    intro p Q f hm hp w σ h0 h
    obtain ⟨x, σ1, h1, h2⟩ := bind_ok_run h
    obtain ⟨g, σ2, h3, h4⟩ := bind_ok_run h2
    cases h4
    obtain ⟨w1, rfl, g2, g3⟩ := hp 0 w σ1 h0 h1
    obtain ⟨w2, rfl, j2, j3⟩ := ih (fun i => hm i.succ) (fun i => hp i.succ) (L.le_trans h0 g2) h3
    exact ⟨w2, rfl, L.le_trans g2 j2, fun i => Fin.cases (hm 0 (L.ole_of_le j2) g3) (fun i => j3 i) i⟩

theorem lookupNode_some {hs : List (Trie K.Ann)} {i : Nat} {q : Key} {u : Trie K.Ann}
    (h : lookupNode hs i q = some u) : ∃ t, hs[i]? = some t ∧ t.NodeAt q u := by
  unfold lookupNode at h
  cases hi : hs[i]? with
  | none => rw [hi] at h; cases h
  | some t => rw [hi] at h; exact ⟨t, rfl, nodeAt?_nodeAt h⟩

theorem allSome_some {β : Type} {n : Nat} {f : Fin n → Option β} {g : Fin n → β}
    (h : allSome f = some g) (i : Fin n) : f i = some (g i) := by
  unfold allSome at h
  split at h
  · cases h; simp
  · cases h

theorem slot_standard (h : K = .standard) (w : (Kind.laws kec K).W) (a : K.Ann) (o : Option LNode) :
    (Kind.laws kec K).slot w a o := by
  subst h; trivial

section
variable {w0 : (Kind.laws kec K).W} {p : PSys} {Z : List (Trie K.Ann × LNode × Nat)}

mutual

theorem BNode.rep (h0 : Inv (L := Kind.laws kec K) kec w0 s p Z) :
    ∀ (n : BNode), (K = .standard ∨ n.Inner) → ∀ {w f σ b a₀}, (Kind.laws kec K).le w0 w → b ≤ 127 →
      (n.eval s.hs).run ((Kind.laws kec K).st w) = .ok (some f, σ) → (f a₀).Formed b →
      ∃ w' l, (Kind.laws kec K).st w' = σ ∧ (Kind.laws kec K).le w w' ∧
        ∀ a, RepN (L := Kind.laws kec K) kec w' (f a) l ∧ (f a).ann = a
  | .empty, _, w, f, σ, b, a₀, _, _, he, _ => by
    cases he; exact ⟨w, .empty, rfl, (Kind.laws kec K).le_refl _, fun a => ⟨.empty a, rfl⟩⟩
  | .hash h, _, w, f, σ, b, a₀, _, _, he, _ => by
    cases he; exact ⟨w, .hash h, rfl, (Kind.laws kec K).le_refl _, fun a => ⟨.hash a h, rfl⟩⟩
  | .leaf n v, _, w, f, σ, b, a₀, _, hb, he, hf => by
    cases he
    refine ⟨w, .leaf n.toList v, rfl, (Kind.laws kec K).le_refl _, fun a => ⟨?_, rfl⟩⟩
    have hl := toList_length n
    have := RepN.leaf (kec := kec) (w := w) a n.toList v (by rw [hl]; have := hf.2; omega)
    rw [ofList_toList hf.1] at this
    exact this
  | .copy i q, _, w, f, σ, b, a₀, hle, _, he, _ => by
    simp only [BNode.eval, Prog.run, Except.ok.injEq, Prod.mk.injEq] at he
    obtain ⟨he, rfl⟩ := he
    cases hu : lookupNode s.hs i q with
    | none => rw [hu] at he; cases he
    | some u =>
      rw [hu] at he
      cases he
      obtain ⟨t, hi, hn⟩ := lookupNode_some hu
      obtain ⟨l', g1, _⟩ := h0.nodeAt hi hn
      exact ⟨w, l', rfl, (Kind.laws kec K).le_refl _, fun a =>
        ⟨(g1.mono ((Kind.laws kec K).ole_of_le hle)).setAnn a, ann_setAnn _ _⟩⟩
  | .ext n c, hI, w, f, σ, b, a₀, hle, hb, he, hf => by
    obtain ⟨o, σ1, h1, h2⟩ := bind_ok_run he
    cases o with
    | none => cases h2
    | some c' =>
      cases h2
      obtain ⟨f1, _, f3, _, f5⟩ := hf
      obtain ⟨w', l, rfl, g2, g3⟩ := BChild.rep h0 c hI hle (b := b - n.count) (by omega) h1 f5
      refine ⟨w', .ext n.toList l, rfl, g2, fun a => ⟨?_, rfl⟩⟩
      have hl := toList_length n
      have := RepN.ext (kec := kec) (w := w') a n.toList c' l (by rw [hl]; omega) g3.1 g3.2
      rw [ofList_toList f1] at this
      exact this
  | .branch cs v, hI, w, f, σ, b, a₀, hle, hb, he, hf => by
    obtain ⟨o, σ1, h1, h2⟩ := bind_ok_run he
    cases ho : allSome o with
    | none => rw [ho] at h2; cases h2
    | some cs' =>
      rw [ho] at h2
      cases h2
      have ho' := allSome_some ho
      have hff : 1 ≤ b ∧ ∀ i, (cs' i).Formed (b - 1) := hf
      have key : ∀ i w σ, (Kind.laws kec K).le w0 w →
          ((cs i).eval s.hs).run ((Kind.laws kec K).st w) = .ok (o i, σ) →
          ∃ w', (Kind.laws kec K).st w' = σ ∧ (Kind.laws kec K).le w w' ∧
            ∃ l, Rep (L := Kind.laws kec K) kec w' (cs' i) l := by
        intro i w σ hle' hr
        rw [ho' i] at hr
        obtain ⟨w', l, k1, k2, k3⟩ := BChild.rep h0 (cs i) (hI.imp_right fun h => h i) hle'
          (b := b - 1) (by omega) hr (hff.2 i)
        exact ⟨w', k1, k2, l, k3⟩
      obtain ⟨w', rfl, g2, g3⟩ := collect_worlds (L := Kind.laws kec K) (w0 := w0)
        (Q := fun i w' => ∃ l, Rep (L := Kind.laws kec K) kec w' (cs' i) l)
        (fun i w w' hl hq => hq.imp fun l => Rep.mono hl) key hle h1
      choose ls hls using g3
      exact ⟨w', .branch ls v, rfl, g2, fun a =>
        ⟨.branch a cs' ls v (fun i => (hls i).1) fun i => (hls i).2, rfl⟩⟩

theorem BChild.rep (h0 : Inv (L := Kind.laws kec K) kec w0 s p Z) :
    ∀ (c : BChild), (K = .standard ∨ c.Inner) → ∀ {w t σ b}, (Kind.laws kec K).le w0 w → b ≤ 127 →
      (c.eval s.hs).run ((Kind.laws kec K).st w) = .ok (some t, σ) → t.Formed b →
      ∃ w' l, (Kind.laws kec K).st w' = σ ∧ (Kind.laws kec K).le w w' ∧
        Rep (L := Kind.laws kec K) kec w' t l
  | .share i q, hI, w, t, σ, b, hle, hb, he, hf => by
    simp only [BChild.eval, Prog.run, Except.ok.injEq, Prod.mk.injEq] at he
    obtain ⟨he, rfl⟩ := he
    obtain ⟨t', hi, hn⟩ := lookupNode_some he
    obtain ⟨l', g1, _, _, _, g3⟩ := h0.nodeAt hi hn
    have hle' := (Kind.laws kec K).ole_of_le hle
    refine ⟨w, l', rfl, (Kind.laws kec K).le_refl _, g1.mono hle', ?_⟩
    rcases hI with hK | hq
    · exact slot_standard hK _ _ _
    · rcases g3 with ⟨e, _⟩ | g3
      · exact absurd e hq
      · exact (Kind.laws kec K).slot_mono hle' g3
  | .new n, hI, w, t, σ, b, hle, hb, he, hf => by
    obtain ⟨o, σ1, h1, h2⟩ := bind_ok_run he
    cases o with
    | none => cases h2
    | some f =>
      cases h2
      obtain ⟨w1, l, rfl, g2, g3⟩ := BNode.rep h0 n hI hle hb h1 hf
      obtain ⟨w2, j1, j2, j3, _⟩ := (Kind.laws kec K).alloc_ok w1 (some l)
      refine ⟨w2, l, j2, (Kind.laws kec K).le_trans g2 j1,
        ((g3 _).1).mono ((Kind.laws kec K).ole_of_le j1), ?_⟩
      rw [(g3 _).2]
      exact j3
  | .put i q n, hI, w, t, σ, b, hle, hb, he, hf => by
    have hK : K = .standard := hI.elim id False.elim
    obtain ⟨o, σ1, h1, h2⟩ := bind_ok_run he
    cases o with
    | none => cases h2
    | some f =>
      cases hu : lookupNode s.hs i q with
      | none => rw [hu] at h2; cases h2
      | some u =>
        rw [hu] at h2
        cases h2
        obtain ⟨w1, l, rfl, g2, g3⟩ := BNode.rep h0 n (.inl hK) hle hb h1 hf
        exact ⟨w1, l, rfl, g2, (g3 _).1, slot_standard hK _ _ _⟩

end

end

theorem bind_ok {β γ : Type} {x : R β} {f : β → R γ} {y : γ} (h : (x >>= f) = .ok y) :
    ∃ z, x = .ok z ∧ f z = .ok y := by
  cases x with
  | error e => cases h
  | ok z => exact ⟨z, rfl, h⟩

theorem permittedN_build {n : BNode} (h : permittedN K M (.build n)) : K = .standard ∨ n.Inner := by
  cases K with
  | standard => exact .inl rfl
  | hashed => exact .inr h

theorem permittedN_edit {i : Nat} {n : BNode} (h : permittedN K M (.edit i n)) :
    (K = .standard ∨ n.Inner) ∧ (K = .hashed → M ≠ .noClone) := by
  cases K with
  | standard => exact ⟨.inl rfl, fun h => nomatch h⟩
  | hashed => exact ⟨.inr h.1, fun _ => h.2⟩

theorem LiveInv.build (h : LiveInv K M kec s) {n : BNode} (hI : K = .standard ∨ n.Inner)
    {f : K.Ann → Trie K.Ann} {st : K.State} (he : (n.eval s.hs).run s.state = .ok (some f, st))
    (hf : (f (K.trieKind.alloc st).1).Formed 127) :
    LiveInv K M kec ⟨(K.trieKind.alloc st).2, s.hs ++ [f (K.trieKind.alloc st).1]⟩ := by
  obtain ⟨w, p, Z, h1, h2⟩ := h.ex
  rw [h1.state] at he
  obtain ⟨w1, l, rfl, g2, g3⟩ := BNode.rep h1 n hI ((Kind.laws kec K).le_refl _) (by decide) he hf
  obtain ⟨_, hb, hx⟩ := formed_plain (kec := kec) (by decide) hf
  rw [(g3 _).1.plain] at hb hx
  have i1 := h1.step_le g2
  obtain ⟨w', k1, k2⟩ := i1.take (g3 (K.trieKind.alloc ((Kind.laws kec K).st w1)).1).1 hb hx
  have e : ∀ a, (f a).setAnn a = f a := by
    intro a
    have := (g3 a).2
    revert this
    cases f a <;> intro h <;> cases h <;> rfl
  have k3 : Inv (L := Kind.laws kec K) kec w' ⟨_, s.hs ++ [(f _).setAnn _]⟩ _ _ := k2
  rw [e] at k3
  refine ⟨w', _, _, k3, fun hK => ?_⟩
  have h2 := h2 hK
  cases M with
  | noClone => exact PSys.Own.push h2 [l]
  | noEmptySubset => exact h2
  | any => trivial

theorem LiveInv.stepN (h : LiveInv K M kec s) {c : NCmd} (hs : c.Short) (hp : permittedN K M c)
    (hw : s.WellMade c) {s' : Sys K.Ann K.State} {o : Obs} (he : s.execN P kec c = .ok (s', o)) :
    LiveInv K M kec s' := by
  cases c with
  | call c => exact h.step hs (by cases K <;> first | trivial | exact hp) he
  | take i q =>
    rcases onNode_cases he with rfl | ⟨t, u, hi, hu, e⟩
    · exact h
    · cases e; exact h.take hi hu
  | share i q =>
    cases K with
    | hashed => exact hp.elim
    | standard =>
      rcases onNode_cases he with rfl | ⟨t, u, hi, hu, e⟩
      · exact h
      · cases e
        have := h.take hi hu
        rw [setAnn_unit] at this
        exact this
  | assign i j q =>
    simp only [Sys.execN, Sys.on] at he
    cases hi : s.hs[i]? with
    | none => rw [hi] at he; cases he; exact h
    | some t =>
      rw [hi] at he
      rcases onNode_cases he with rfl | ⟨t', u, hj, hu, e⟩
      · exact h
      · cases e
        obtain ⟨w, p, Z, h1, h2⟩ := h.ex
        obtain ⟨l', g1, _, g3, g4, _⟩ := h1.nodeAt hj hu
        obtain ⟨l, f, hz⟩ := h1.zip hi
        refine ⟨w, _, _, h1.assign hz g1 g3 g4, fun hK => ?_⟩
        subst hK
        have h2 := h2 rfl
        cases M with
        | noClone => exact (hp rfl).elim
        | noEmptySubset => exact h2
        | any => trivial
  | build n =>
    obtain ⟨⟨o', st⟩, h1, h2⟩ := bind_ok he
    cases o' with
    | none => cases h2; exact h
    | some f =>
      cases h2
      exact h.build (permittedN_build hp) h1 (hw f st h1 _)
  | edit i n =>
    simp only [Sys.execN, Sys.on] at he
    cases hi : s.hs[i]? with
    | none => rw [hi] at he; cases he; exact h
    | some t =>
      rw [hi] at he
      obtain ⟨⟨o', st⟩, h1, h2⟩ := bind_ok he
      cases o' with
      | none => cases h2; exact h
      | some f =>
        cases h2
        obtain ⟨w, p, Z, i1, i2⟩ := h.ex
        rw [i1.state] at h1
        have hf := hw f st (by rw [i1.state]; exact h1) t.ann
        obtain ⟨w', l, rfl, g2, g3⟩ := BNode.rep i1 n (permittedN_edit hp).1 ((Kind.laws kec K).le_refl _)
          (by decide) h1 hf
        obtain ⟨_, hb, hx⟩ := formed_plain (kec := kec) (by decide) hf
        rw [(g3 _).1.plain] at hb hx
        obtain ⟨l0, f0, hz⟩ := i1.zip hi
        have i3 := (i1.step_le g2).assign hz (g3 t.ann).1 hb hx
        have e : (f t.ann).setAnn t.ann = f t.ann := by
          have := (g3 t.ann).2
          revert this
          cases f t.ann <;> intro h <;> cases h <;> rfl
        rw [e] at i3
        refine ⟨w', _, _, i3, fun hK => ?_⟩
        subst hK
        have h2 := i2 rfl
        cases M with
        | noClone => exact ((permittedN_edit hp).2 rfl rfl).elim
        | noEmptySubset => exact h2
        | any => trivial

end EthTrie
