import Verif.Props.Deref
import Verif.Props.Exact
import Verif.Spec.Build

/-!
# Property C58: tries that are put together from nodes
-/

namespace EthTrie

open Spec KMap LNode Nibbles

/-! ### Contents -/

theorem lookupNode_below {α : Type} {hs : List (Trie α)} {i : Nat} {q : Key} {u : Trie α}
    (h : lookupNode hs i q = some u) : u.contents = KMap.below (hs.map Trie.contents) i q := by
  unfold lookupNode at h
  cases hi : hs[i]? with
  | none => rw [hi] at h; cases h
  | some t =>
    rw [hi] at h
    rw [KMap.below, List.getElem?_map, hi]
    exact C52_contents (nodeAt?_nodeAt h)

theorem contents_setAnn {α : Type} (t : Trie α) (a : α) : (t.setAnn a).contents = t.contents := by
  cases t <;> rfl

section
variable {α S : Type} [TrieKind α S] {hs : List (Trie α)}

theorem collect_all {β : Type} : ∀ {n : Nat} {p : Fin n → Prog α β} {f : Fin n → β} {s s' : S},
    (Prog.collect n p).run s = .ok (f, s') → ∀ i, ∃ s₁ s₂, (p i).run s₁ = .ok (f i, s₂) := by
  intro n
  induction n with
  | zero => intro p f s s' _ i; exact i.elim0
  | succ n ih =>
    intro p f s s' h i
    obtain ⟨x, s₁, h1, h2⟩ := bind_ok_run h
    obtain ⟨g, s₂, h3, h4⟩ := bind_ok_run h2
    cases h4
    exact Fin.cases ⟨s, s₁, h1⟩ (fun i => ih h3 i) i

mutual

/-- C58: the contents of a node that is made by hand, well-formed or not. -/
theorem C58_contents : ∀ (n : BNode) {f : α → Trie α} {s s' : S},
    (n.eval hs).run s = .ok (some f, s') → ∀ a, (f a).contents = n.mean (hs.map Trie.contents)
  | .empty, f, s, s', h, a => by cases h; rfl
  | .hash x, f, s, s', h, a => by cases h; funext k; cases k <;> rfl
  | .leaf n v, f, s, s', h, a => by cases h; rfl
  | .copy i q, f, s, s', h, a => by
    simp only [BNode.eval, Prog.run, Except.ok.injEq, Prod.mk.injEq] at h
    obtain ⟨h, rfl⟩ := h
    cases hu : lookupNode hs i q with
    | none => rw [hu] at h; cases h
    | some u =>
      rw [hu] at h
      cases h
      rw [contents_setAnn]
      exact lookupNode_below hu
  | .ext n c, f, s, s', h, a => by
    obtain ⟨o, s₁, h1, h2⟩ := bind_ok_run h
    cases o with
    | none => cases h2
    | some c' =>
      cases h2
      have := C58_child c h1
      funext k
      show (if n.toList <+: k then c'.contents (k.drop n.toList.length) else none) = _
      rw [this]
      rfl
  | .branch cs v, f, s, s', h, a => by
    obtain ⟨o, s₁, h1, h2⟩ := bind_ok_run h
    cases ho : allSome o with
    | none => rw [ho] at h2; cases h2
    | some cs' =>
      rw [ho] at h2
      cases h2
      have key : ∀ i, (cs' i).contents = (cs i).mean (hs.map Trie.contents) := by
        intro i
        obtain ⟨s₁, s₂, h3⟩ := collect_all h1 i
        rw [allSome_some ho i] at h3
        exact C58_child (cs i) h3
      funext k
      cases k with
      | nil => rfl
      | cons d k => exact congrFun (key d) k

/-- C58: the contents of a child that is made by hand. -/
theorem C58_child : ∀ (c : BChild) {t : Trie α} {s s' : S},
    (c.eval hs).run s = .ok (some t, s') → t.contents = c.mean (hs.map Trie.contents)
  | .share i q, t, s, s', h => by
    simp only [BChild.eval, Prog.run, Except.ok.injEq, Prod.mk.injEq] at h
    exact lookupNode_below h.1
  | .new n, t, s, s', h => by
    obtain ⟨o, s₁, h1, h2⟩ := bind_ok_run h
    cases o with
    | none => cases h2
    | some f =>
      cases h2
      exact C58_contents n h1 _
  | .put i q n, t, s, s', h => by
    obtain ⟨o, s₁, h1, h2⟩ := bind_ok_run h
    cases o with
    | none => cases h2
    | some f =>
      cases hu : lookupNode hs i q with
      | none => rw [hu] at h2; cases h2
      | some u =>
        rw [hu] at h2
        cases h2
        exact C58_contents n h1 _

end

/-- C58: making nodes does not panic. -/
theorem C58_total (P : Profile) (kec : Bytes → H256) (s : Sys α S) (i : Nat) (n : BNode) :
    (∃ s' o, s.execN P kec (.build n) = .ok (s', o)) ∧
    ∃ s' o, s.execN P kec (.edit i n) = .ok (s', o) := by
  obtain ⟨x, _, st, _, h, _⟩ := BNode.eval_bare (rfl : s.hs.map Trie.bare = _) n s.state s.state
  constructor
  · simp only [Sys.execN, h, R_bind_ok]
    cases x <;> exact ⟨_, _, rfl⟩
  · simp only [Sys.execN, Sys.on]
    cases s.hs[i]? with
    | none => exact ⟨_, _, rfl⟩
    | some t =>
      simp only [h, R_bind_ok]
      cases x <;> exact ⟨_, _, rfl⟩

end

/-! ### Hashes -/

section
variable {K : Kind} {M : Mode} {P : Profile} {kec : Bytes → H256} {s s' : Sys K.Ann K.State} {n : BNode}

/-- C58: a new trie made from a well-formed node has the contents of the node and the right hash, the
other tries keep their hashes, and the program can go on. -/
theorem C58_build (h : Live K M P kec s) (hp : permittedN K M (.build n))
    (hw : s.WellMade (.build n)) (he : s.execN P kec (.build n) = .ok (s', .unit)) :
    Live K M P kec s' ∧ ∃ t, s'.hs = s.hs ++ [t] ∧ t.contents = n.mean (s.hs.map Trie.contents) ∧
      (t.rootHash P kec s'.state).map (·.1) = (t.bare.rootHash P kec ()).map (·.1) ∧
      ∀ (i : Nat) (u : Trie K.Ann), s.hs[i]? = some u →
        (u.rootHash P kec s'.state).map (·.1) = (u.rootHash P kec s.state).map (·.1) := by
  have hl : Live K M P kec s' := .nodes (c := .build n) h trivial hp hw he
  refine ⟨hl, ?_⟩
  obtain ⟨⟨o, st⟩, h1, h2⟩ := bind_ok he
  cases o with
  | none => cases h2
  | some f =>
    cases h2
    refine ⟨_, rfl, C58_contents n h1 _, ?_, fun i u hi => ?_⟩
    · have := C52_handle (i := s.hs.length) (t := f (K.trieKind.alloc st).1) hl (by simp)
      rw [this]
      obtain ⟨w, p, Z, i1, _⟩ := h.inv.ex
      rw [i1.state] at h1
      obtain ⟨w1, l, rfl, g2, g3⟩ := BNode.rep i1 n (permittedN_build hp) ((Kind.laws kec K).le_refl _)
        (by decide) h1 (hw f _ (by rw [i1.state]; exact h1) (K.trieKind.alloc st).1)
      obtain ⟨w2, j1, j2, j3, j4⟩ := (Kind.laws kec K).alloc_ok w1 none
      rw [j2] at j4
      rw [(g3 _).2]
      simp only [j4]
    · have hi' : (s.hs ++ [f (K.trieKind.alloc st).1])[i]? = some u := by
        rw [List.getElem?_append_left (List.getElem?_eq_some_iff.1 hi).1, hi]
      rw [C52_handle h hi, C52_handle (i := i) hl hi']
      obtain ⟨w, p, Z, i1, _⟩ := h.inv.ex
      obtain ⟨l0, f0, hz⟩ := i1.zip hi
      have hok := i1.ok _ (List.mem_of_getElem? hz)
      rw [i1.state] at h1
      obtain ⟨w1, l, rfl, g2, g3⟩ := BNode.rep i1 n (permittedN_build hp) ((Kind.laws kec K).le_refl _)
        (by decide) h1 (hw f _ (by rw [i1.state]; exact h1) (K.trieKind.alloc st).1)
      obtain ⟨w2, j1, j2, _, _⟩ := (Kind.laws kec K).alloc_ok w1 none
      have e := (Kind.laws kec K).le_cell ((Kind.laws kec K).le_trans g2 j1) hok.slot
      rw [j2] at e
      rw [i1.state]
      simp only [e]

/-- C58: overwriting the node of a trie with a well-formed one replaces the contents, but `hash()`
returns what is in the cell of the overwritten trie, or if there is nothing the right hash. -/
theorem C58_edit {i : Nat} {t : Trie K.Ann} (h : Live K M P kec s) (hi : s.hs[i]? = some t)
    (hp : permittedN K .any (.edit i n)) (hw : s.WellMade (.edit i n))
    (he : s.execN P kec (.edit i n) = .ok (s', .unit)) :
    ∃ v, s'.hs = s.hs.set i v ∧ v.contents = n.mean (s.hs.map Trie.contents) ∧
      (v.rootHash P kec s'.state).map (·.1) = match K.trieKind.cacheGet t.ann s.state with
        | some x => .ok x
        | none => (v.bare.rootHash P kec ()).map (·.1) := by
  have hl : LiveInv K .any kec s' := by
    obtain ⟨w, p, Z, i1, _⟩ := h.inv.ex
    exact LiveInv.stepN (M := .any) ⟨w, p, Z, i1, fun _ => trivial⟩ (c := .edit i n) trivial hp hw he
  simp only [Sys.execN, exec_on hi] at he
  obtain ⟨⟨o, st⟩, h1, h2⟩ := bind_ok he
  cases o with
  | none => cases h2
  | some f =>
    cases h2
    refine ⟨_, rfl, C58_contents n h1 _, ?_⟩
    have hf := hw f st h1 t.ann
    obtain ⟨w, p, Z, i1, _⟩ := h.inv.ex
    obtain ⟨l0, f0, hz⟩ := i1.zip hi
    have hok := i1.ok _ (List.mem_of_getElem? hz)
    rw [i1.state] at h1
    obtain ⟨w1, l, rfl, g2, g3⟩ := BNode.rep i1 n (permittedN_edit hp).1 ((Kind.laws kec K).le_refl _)
      (by decide) h1 hf
    have hP : (f t.ann).Plain kec := (formed_plain (by decide) hf).1
    obtain ⟨x, w', k1, _, k3⟩ := run_rootHash (L := Kind.laws kec K) (P := P) (g3 t.ann).1
    rw [(g3 t.ann).2] at k3
    have e := (Kind.laws kec K).le_cell g2 hok.slot
    simp only [hP.hash, (g3 t.ann).1.plain, i1.state]
    rw [k1, k3, e]
    simp only [Except.map]
    cases K.trieKind.cacheGet t.ann ((Kind.laws kec K).st w) <;> rfl

/-- C58: a trie that was made from a canonical node is equal to every trie with the same contents that
was built by the calls of the crate in any way, in any other program. -/
theorem C58_fresh {K₂ : Kind} {M₂ : Mode} {P₂ : Profile} {kec₂ : Bytes → H256}
    {s₂ : Sys K₂.Ann K₂.State} {i₂ : Nat} {t : Trie K.Ann} {t₂ : Trie K₂.Ann}
    (h : Live K M P kec s) (h₂ : Reached K₂ M₂ P₂ kec₂ s₂) (ht : t ∈ s.hs) (hc : t.Canonical)
    (hi₂ : s₂.hs[i₂]? = some t₂) : t.beq t₂ = true ↔ t.contents = t₂.contents := by
  have hc₂ := (h₂.canon (List.mem_of_getElem? hi₂)).1
  have hw : t.WFKeys := by
    obtain ⟨w, p, Z, h1, _⟩ := h.inv.ex
    obtain ⟨i, hi⟩ := List.getElem?_of_mem ht
    obtain ⟨l, hr, _⟩ := h1.nodeAt hi (.here t)
    exact hr.wfKeys
  rw [Trie.beq_iff_plain hw (h₂.live.wfKeys (List.mem_of_getElem? hi₂))]
  exact ⟨fun e => by rw [Trie.contents, e]; rfl, canon_unique _ _ (plain_of_canonical t hc) hc₂⟩

end

/-- C58: a program with `HashedPartialTrie` that makes well-formed nodes from new nodes and parts of
tries does the same as with `StandardTrie`: all results are the same, panics included, and the tries are
the same up to caches at the end.  Missing: clones of handles as children and children that are changed
in place, see `C58_false` and `C58_inPlace`, and nodes that are not well-formed, see `C58_shape`. -/
theorem C58_partial (P : Profile) (kec : Bytes → H256) (M : Mode) [M.Safe] {cs : List NCmd}
    (hc : ∀ c ∈ cs, c.Short) (hp : ∀ c ∈ cs, permittedN .hashed M c)
    (hm : Kind.standard.start.AllMade P kec cs) :
    bareRes (Kind.standard.runN P kec cs) = bareRes (Kind.hashed.runN P kec cs) :=
  runN_bare P kec M hc hp hm

/-- A branch with two children. -/
def two (i : Fin 16) (c : BChild) (j : Fin 16) (d : BChild) : BNode :=
  .branch (fun k => if k = i then c else if k = j then d else .new .empty) []

/-- A case of `C58_build`, `C58_edit` and `C58_fresh`: a branch of a new leaf and a leaf of a trie is equal
to the trie, and has the same hash; and so is the trie after an assignment of such a node. -/
example : ∀ (K : Kind) (P : Profile), K.obsN P kec0
    [.call (.fromIter [([1, 2], .val (List.replicate 40 7)), ([2, 2], .val (List.replicate 40 9))]),
      .build (two 1 (.new (.leaf ⟨1, 2⟩ (List.replicate 40 7))) 2 (.share 0 [2])), .call (.eq 0 1),
      .call (.hash 0), .call (.hash 1), .edit 0 (two 1 (.share 1 [1]) 3 (.new (.copy 1 [2]))),
      .call (.eq 0 1), .call (.get 0 [3, 2]), .call (.hash 0), .call (.hash 1), .build (.copy 2 [])] =
    .ok [.unit, .unit, .bool true, .root (Vector.replicate 32 83), .root (Vector.replicate 32 83), .unit,
      .bool false, .val (some (List.replicate 40 9)), .root (Vector.replicate 32 83),
      .root (Vector.replicate 32 83), .noHandle] := by
  intro K ⟨P⟩; cases K <;> cases P <;> decide +kernel

/-- A trie with two keys is put below a branch; the child is a clone of the trie, or a new wrapper with
its node.  Then the trie is changed and the two tries are hashed. -/
def adopt (c : BChild) : List NCmd :=
  [.call (.fromIter [([1, 2], .val (List.replicate 40 7)), ([2, 2], .val (List.replicate 40 9))]),
    .build (two 3 c 4 (.new (.leaf ⟨1, 5⟩ [6]))), .call (.insert 0 [3, 3] (.val (List.replicate 50 8))),
    .call (.hash 0), .call (.hash 1), .call (.hash 0)]

/-- C58 fails if a clone of a trie is used as a child: without any change in between, the trie has
another hash after the trie that was put together has been hashed.  With a new wrapper that does not
happen. -/
theorem C58_false : ∀ (P : Profile) (kec : Bytes → H256), ∃ a b c : Bytes, a ≠ c ∧
    Kind.standard.obsN P kec (adopt (.share 0 [])) =
      .ok [.unit, .unit, .unit, .root (kec a), .root (kec b), .root (kec a)] ∧
    Kind.hashed.obsN P kec (adopt (.share 0 [])) =
      .ok [.unit, .unit, .unit, .root (kec a), .root (kec b), .root (kec c)] ∧
    Kind.hashed.obsN P kec (adopt (.new (.copy 0 []))) =
      .ok [.unit, .unit, .unit, .root (kec a), .root (kec b), .root (kec a)] := by
  intro ⟨P⟩
  refine spelled fun f => ⟨248 :: 113 :: 128 :: 160 ::
    (spell (f (234 :: 50 :: 168 :: List.replicate 40 7))).toList ++ 160 ::
    (spell (f (234 :: 50 :: 168 :: List.replicate 40 9))).toList ++ 160 ::
    (spell (f (244 :: 51 :: 178 :: List.replicate 50 8))).toList ++ List.replicate 13 128,
    243 :: 128 :: 128 :: 128 :: 160 :: (spell (f (248 :: 81 :: 128 :: 160 ::
    (spell (f (234 :: 50 :: 168 :: List.replicate 40 7))).toList ++ 160 ::
    (spell (f (234 :: 50 :: 168 :: List.replicate 40 9))).toList ++ List.replicate 14 128))).toList ++
    194 :: 53 :: 6 :: List.replicate 12 128,
    248 :: 81 :: 128 :: 160 ::
    (spell (f (234 :: 50 :: 168 :: List.replicate 40 7))).toList ++ 160 ::
    (spell (f (234 :: 50 :: 168 :: List.replicate 40 9))).toList ++ List.replicate 14 128, ?_, ?_, ?_, ?_⟩
  · exact fun h => absurd (List.head_eq_of_cons_eq (List.tail_eq_of_cons_eq h)) (by decide)
  all_goals cases P <;> kernel_rfl

/-- A trie is hashed; then its child at `1` is replaced, by a changed clone or by a new one, and the trie
is hashed again. -/
def replace (c : BNode → BChild) : List NCmd :=
  [.call (.fromIter [([1, 2], .val (List.replicate 40 7)), ([2, 2], .val (List.replicate 40 9))]),
    .call (.hash 0), .edit 0 (two 1 (c (.leaf ⟨1, 2⟩ [8])) 2 (.share 0 [2])),
    .call (.get 0 [1, 2]), .call (.hash 0)]

/-- C58 fails if a child is changed in place (`Arc::make_mut`): its cell is not emptied, and the trie has
the hash from before the change.  With a new wrapper it has the right one. -/
theorem C58_inPlace : ∀ (P : Profile) (kec : Bytes → H256), ∃ a b : Bytes, a ≠ b ∧
    Kind.standard.obsN P kec (replace (.put 0 [1])) =
      .ok [.unit, .root (kec a), .unit, .val (some [8]), .root (kec b)] ∧
    Kind.hashed.obsN P kec (replace (.put 0 [1])) =
      .ok [.unit, .root (kec a), .unit, .val (some [8]), .root (kec a)] ∧
    Kind.hashed.obsN P kec (replace .new) =
      .ok [.unit, .root (kec a), .unit, .val (some [8]), .root (kec b)] := by
  intro ⟨P⟩
  refine spelled fun f => ⟨248 :: 81 :: 128 :: 160 ::
    (spell (f (234 :: 50 :: 168 :: List.replicate 40 7))).toList ++ 160 ::
    (spell (f (234 :: 50 :: 168 :: List.replicate 40 9))).toList ++ List.replicate 14 128,
    243 :: 128 :: 194 :: 50 :: 8 :: 160 ::
    (spell (f (234 :: 50 :: 168 :: List.replicate 40 9))).toList ++ List.replicate 14 128, ?_, ?_, ?_, ?_⟩
  · exact fun h => absurd (List.head_eq_of_cons_eq h) (by decide)
  all_goals cases P <;> kernel_rfl

/-- C58 fails for nodes that are not well-formed: an extension above a leaf has the items of a leaf, but
is not equal to the leaf and has another hash. -/
theorem C58_shape : ∀ (K : Kind) (P : Profile) (kec : Bytes → H256), ∃ a b : Bytes, a ≠ b ∧
    K.obsN P kec [.build (.leaf ⟨2, 0x12⟩ (List.replicate 40 7)),
      .build (.ext ⟨1, 1⟩ (.new (.leaf ⟨1, 2⟩ (List.replicate 40 7)))),
      .call (.items 0), .call (.items 1), .call (.eq 0 1), .call (.hash 0), .call (.hash 1)] =
      .ok [.unit, .unit, .items [(⟨2, 0x12⟩, .val (List.replicate 40 7))],
        .items [(⟨2, 0x12⟩, .val (List.replicate 40 7))], .bool false, .root (kec a),
        .root (kec b)] := by
  intro K ⟨P⟩
  refine spelled fun f => ⟨236 :: 130 :: 32 :: 18 :: 168 :: List.replicate 40 7,
    226 :: 17 :: 160 :: (spell (f (234 :: 50 :: 168 :: List.replicate 40 7))).toList, ?_, ?_⟩
  · exact fun h => absurd (List.head_eq_of_cons_eq h) (by decide)
  · cases K <;> cases P <;> kernel_rfl

/-- Being well-formed is decidable. -/
def Trie.formedDec {α : Type} : (t : Trie α) → (b : Nat) → Decidable (t.Formed b)
  | .empty _, _ => .isTrue trivial
  | .hash _ _, _ => .isTrue trivial
  | .branch _ cs _, b =>
    have : ∀ i, Decidable ((cs i).Formed (b - 1)) := fun i => (cs i).formedDec (b - 1)
    inferInstanceAs (Decidable (1 ≤ b ∧ ∀ i, (cs i).Formed (b - 1)))
  | .ext _ n c, b =>
    have : Decidable (c.Formed (b - n.count)) := c.formedDec (b - n.count)
    have : Decidable c.BranchOrHash := by cases c <;> (unfold BranchOrHash; infer_instance)
    inferInstanceAs (Decidable (n.packed.toNat < 16 ^ n.count ∧ n.count ≠ 0 ∧ n.count ≤ b ∧
      c.BranchOrHash ∧ c.Formed (b - n.count)))
  | .leaf _ n _, b => inferInstanceAs (Decidable (n.packed.toNat < 16 ^ n.count ∧ n.count ≤ b))

/-- Whether the nodes made by a program are well-formed. -/
def allFormed (P : Profile) (kec : Bytes → H256) (s : Sys Unit Unit) : List NCmd → Bool
  | [] => true
  | c :: cs => (match c with
      | .build n | .edit _ n => match (n.eval s.hs).run s.state with
        | .ok (some f, _) => @decide _ ((f ()).formedDec 127)
        | _ => true
      | _ => true) && match s.execN P kec c with
        | .ok (s', _) => allFormed P kec s' cs
        | _ => true

theorem allFormed_made {P : Profile} {kec : Bytes → H256} {cs : List NCmd} {s : Sys Unit Unit}
    (h : allFormed P kec s cs = true) : s.AllMade P kec cs := by
  induction cs generalizing s with
  | nil => trivial
  | cons c cs ih =>
    simp only [allFormed, Bool.and_eq_true] at h
    refine ⟨?_, fun s' o he => ih ?_⟩
    · have h := h.1
      cases c with
      | build n | edit i n =>
        intro f st he a
        simp only [he] at h
        exact @of_decide_eq_true _ ((f ()).formedDec 127) h
      | _ => trivial
    · have h := h.2
      rw [he] at h
      exact h

/-- Cases of `C58_partial`: the steps of `adopt` and `replace` are permitted if a new wrapper is used,
and all nodes are well-formed. -/
example (P : Profile) :
    (∀ c ∈ adopt (.new (.copy 0 [])), c.Short ∧ permittedN .hashed .noClone c) ∧
    (∀ c ∈ replace .new, c.Short ∧ permittedN .hashed .noEmptySubset c) ∧
    Kind.standard.start.AllMade P kec0 (adopt (.new (.copy 0 []))) ∧
    Kind.standard.start.AllMade P kec0 (replace .new) := by
  refine ⟨?_, ?_, allFormed_made ?_, allFormed_made ?_⟩
  · simp [adopt, two, NCmd.Short, Cmd.Short, permittedN, permitted, BNode.Inner]
    refine ⟨?_, fun i => ?_⟩
    · rintro a b (⟨rfl, _⟩ | ⟨rfl, _⟩) <;> decide
    · split
      · simp [BChild.Inner, BNode.Inner]
      · split <;> simp [BChild.Inner, BNode.Inner]
  · simp [replace, two, NCmd.Short, Cmd.Short, permittedN, permitted, BNode.Inner]
    refine ⟨?_, fun i => ?_⟩
    · rintro a b (⟨rfl, _⟩ | ⟨rfl, _⟩) <;> decide
    · split
      · simp [BChild.Inner, BNode.Inner]
      · split <;> simp [BChild.Inner, BNode.Inner]
  all_goals
    obtain ⟨P⟩ := P
    cases P <;> decide +kernel

end EthTrie
