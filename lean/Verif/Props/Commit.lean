import Verif.Spec.Rlp
import Verif.Trie.Commit
import Verif.Trie.RlpNode
import Verif.Trie.Strand
import Verif.Props.Subsets

/-!
# Property C35: the root hash commits to the trie
-/

namespace EthTrie

open Spec KMap LNode Nibbles

theorem childRlp_plain (kec : Bytes → H256) {α : Type} (t : Trie α) :
    t.childRlp kec = (t.plain.enc kec).item := by
  induction t with
  | empty a => rfl
  | hash a h => rw [Trie.childRlp, Trie.plain, enc, EncodedNode.item, rlpValue_eq]
  | branch a cs v ih =>
    rw [Trie.childRlp, Trie.plain, enc_rlp (by simp [IsHash]), hashIfLarge_item, LNode.rlp]
    simp only [ih]; rfl
  | ext a n c ih =>
    rw [Trie.childRlp, Trie.plain, enc_rlp (by simp [IsHash]), hashIfLarge_item, LNode.rlp, ih]; rfl
  | leaf a n v =>
    rw [Trie.childRlp, Trie.plain, enc_rlp (by simp [IsHash]), hashIfLarge_item, LNode.rlp]; rfl

theorem rlp_plain (kec : Bytes → H256) {α : Type} (t : Trie α) : t.rlp kec = t.plain.rlp kec := by
  cases t <;> simp only [Trie.rlp, Trie.plain, LNode.rlp, childRlp_plain]

theorem small_repN {kec : Bytes → H256} {t : Trie Unit} {l : LNode}
    (h : RepN (L := lawsUnit kec) kec () t l) (hv : t.SmallValues) : l.Small := by
  induction h with
  | empty a => trivial
  | hash a h => trivial
  | branch a cs lcs v h ho ih => exact ⟨hv.1, fun i => ih i (hv.2 i)⟩
  | ext a k c lc hk h ho ih => exact ⟨hk, ih hv⟩
  | leaf a k v hk => exact ⟨hk, hv⟩

theorem small_bare {α : Type} {t : Trie α} (hv : t.SmallValues) : t.bare.SmallValues := by
  induction t with
  | empty a => trivial
  | hash a h => trivial
  | branch a cs v ih => exact ⟨hv.1, fun i => ih i (hv.2 i)⟩
  | ext a n c ih => exact ih hv
  | leaf a n v => exact hv

theorem small_plain {kec : Bytes → H256} {α : Type} {t : Trie α} (h : t.Plain kec)
    (hv : t.SmallValues) : t.plain.Small := small_repN h (small_bare hv)

theorem isHash_plain {α : Type} (t : Trie α) : t.plain.IsHash ↔ t.IsHash := by
  cases t <;> exact Iff.rfl

theorem noHash_plain {α : Type} {t : Trie α} (h : t.NoHash) (q : Key) (u : LNode)
    (hu : At t.plain q u) : ¬ u.IsHash := by
  obtain ⟨x, h1, rfl⟩ := nodeAt_of_at hu
  exact fun hx => h _ _ h1 ((isHash_plain x).1 hx)

theorem collide_plain {kec : Bytes → H256} {α β : Type} {t : Trie α} {u : Trie β} (h : LNode.Collide kec t.plain u.plain) :
    t.Collide kec u := by
  obtain ⟨q, x, y, h1, h2, h3, h4, h5⟩ := h
  obtain ⟨a, g1, rfl⟩ := nodeAt_of_at h1
  obtain ⟨b, g2, rfl⟩ := nodeAt_of_at h2
  exact ⟨q, a, b, g1, g2, fun h => h3 ((isHash_plain a).2 h), fun h => h4 ((isHash_plain b).2 h), by
    rwa [rlp_plain, rlp_plain]⟩

theorem plain_collide {kec : Bytes → H256} {α β : Type} {t : Trie α} {u : Trie β} (h : t.Collide kec u) :
    LNode.Collide kec t.plain u.plain := by
  obtain ⟨q, x, y, h1, h2, h3, h4, h5⟩ := h
  exact ⟨q, _, _, h1.at, h2.at, fun h => h3 ((isHash_plain x).1 h), fun h => h4 ((isHash_plain y).1 h), by
    rwa [← rlp_plain, ← rlp_plain]⟩

/-- A collision of nodes is a collision of parts of the contents. -/
theorem Trie.Collide.contents {kec : Bytes → H256} {α β : Type} {t : Trie α} {u : Trie β}
    (h : t.Collide kec u) (ht : t.plain.Canon) (hu : u.plain.Canon) :
    KMap.Collide kec t.contents u.contents := (plain_collide h).contents ht hu

section

variable {K : Kind} {M : Mode} [M.Safe] {P : Profile} {kec : Bytes → H256} {s : Sys K.Ann K.State}
  {i : Nat} {t : Trie K.Ann} {K' : Kind} {M' : Mode} [M'.Safe] {P' : Profile} {s' : Sys K'.Ann K'.State}
  {i' : Nat} {t' : Trie K'.Ann}

/-- The root hash is the hash of the RLP of the root.  (So a collision of the RLPs of two nodes is a
collision of the hash function on inputs that occur when the nodes are hashed.) -/
theorem C35_rlp (h : Live K M P kec s) (hi : s.hs[i]? = some t) (hh : ¬ t.IsHash) :
    (t.rootHash P kec s.state).map (·.1) = .ok (kec (t.rlp kec)) := by
  rw [h.hash hi, rlp_plain, rootHash_rlp fun hx => hh ((isHash_plain t).1 hx)]

example (K : Kind) (P : Profile) : ((caseT K P 0).rootHash P kec0 (caseS K P).state).map (·.1) =
    .ok (kec0 ((caseT K P 0).rlp kec0)) :=
  C35_rlp (caseLive K P) (caseGet K P (by decide)) (caseNotHash K P _ (by decide))

/-- C35: if two tries without hash nodes have equal root hashes then they are equal, or two nodes at
the same position in them have different RLPs with the same hash. -/
theorem C35_commits (h : Live K M P kec s) (hi : s.hs[i]? = some t) (h' : Live K' M' P' kec s')
    (hi' : s'.hs[i']? = some t') (hv : t.SmallValues) (hv' : t'.SmallValues) (hn : t.NoHash)
    (hn' : t'.NoHash) (he : (t.rootHash P kec s.state).map (·.1) =
      (t'.rootHash P' kec s'.state).map (·.1)) : t.beq t' = true ∨ t.Collide kec t' := by
  rw [h.hash hi, h'.hash hi'] at he
  have hp := h.plain (List.mem_of_getElem? hi)
  have hp' := h'.plain (List.mem_of_getElem? hi')
  rcases rootHash_agree (small_plain hp hv) (small_plain hp' hv')
    (noHash_plain hn _ _ (.here _)) (noHash_plain hn' _ _ (.here _)) (by simpa using he) with g | g
  · left
    rw [Trie.beq_iff_plain (h.wfKeys (List.mem_of_getElem? hi)) (h'.wfKeys (List.mem_of_getElem? hi'))]
    exact (g.view (noHash_plain hn')).eq (noHash_plain hn)
  · exact .inr (collide_plain g)

/-- The tries of the two types have the same hash. -/
example (P : Profile) : (caseT .standard P 0).beq (caseT .hashed P 0) = true ∨
    (caseT .standard P 0).Collide kec0 (caseT .hashed P 0) :=
  C35_commits (caseLive .standard P) (caseGet .standard P (by decide)) (caseLive .hashed P)
    (caseGet .hashed P (by decide)) (caseSmall _ P _ (by decide)) (caseSmall _ P _ (by decide))
    (caseNoHash _ P _ (by decide)) (caseNoHash _ P _ (by decide))
    (by obtain ⟨P⟩ := P; cases P <;> decide +kernel)

/-- C35 for contents: in particular the tries have the same contents. -/
theorem C35_contents (h : Live K M P kec s) (hi : s.hs[i]? = some t) (h' : Live K' M' P' kec s')
    (hi' : s'.hs[i']? = some t') (hv : t.SmallValues) (hv' : t'.SmallValues) (hn : t.NoHash)
    (hn' : t'.NoHash) (he : (t.rootHash P kec s.state).map (·.1) =
      (t'.rootHash P' kec s'.state).map (·.1)) : t.contents = t'.contents ∨ t.Collide kec t' := by
  refine (C35_commits h hi h' hi' hv hv' hn hn' he).imp (fun g => ?_) id
  rw [Trie.contents, Trie.contents, beq_plain g]

example (P : Profile) : (caseT .standard P 1).contents = (caseT .hashed P 1).contents ∨
    (caseT .standard P 1).Collide kec0 (caseT .hashed P 1) :=
  C35_contents (caseLive .standard P) (caseGet .standard P (by decide)) (caseLive .hashed P)
    (caseGet .hashed P (by decide)) (caseSmall _ P _ (by decide)) (caseSmall _ P _ (by decide))
    (caseNoHash _ P _ (by decide)) (caseNoHash _ P _ (by decide))
    (by obtain ⟨P⟩ := P; cases P <;> decide +kernel)

/-- C47: a partial trie with the root hash of a trie is a partial view of it, or there is a
collision. -/
theorem C47_view (h : Live K M P kec s) (hi : s.hs[i]? = some t) (h' : Live K' M' P' kec s')
    (hi' : s'.hs[i']? = some t') (hv : t.SmallValues) (hv' : t'.SmallValues) (hn : ¬ t.IsHash)
    (hn' : t'.NoHash) (he : (t.rootHash P kec s.state).map (·.1) =
      (t'.rootHash P' kec s'.state).map (·.1)) : t.ViewOf P kec t' ∨ t.Collide kec t' := by
  rw [h.hash hi, h'.hash hi'] at he
  have hp := h.plain (List.mem_of_getElem? hi)
  have hp' := h'.plain (List.mem_of_getElem? hi')
  rcases rootHash_agree (small_plain hp hv) (small_plain hp' hv')
    (fun hx => hn ((isHash_plain t).1 hx)) (noHash_plain hn' _ _ (.here _)) (by simpa using he) with g | g
  · exact .inl ((viewOf_iff hp hp').2 (g.view (noHash_plain hn')))
  · exact .inr (collide_plain g)

/-- The subset and the trie it was made from have the same hash. -/
theorem caseHash (K : Kind) (P : Profile) : ((caseT K P 2).rootHash P kec0 (caseS K P).state).map (·.1) =
    ((caseT K P 0).rootHash P kec0 (caseS K P).state).map (·.1) := by
  obtain ⟨P⟩ := P; cases K <;> cases P <;> decide +kernel

example (K : Kind) (P : Profile) : (caseT K P 2).ViewOf P kec0 (caseT K P 0) ∨
    (caseT K P 2).Collide kec0 (caseT K P 0) :=
  C47_view (caseLive K P) (caseGet K P (by decide)) (caseLive K P) (caseGet K P (by decide))
    (caseSmall K P _ (by decide)) (caseSmall K P _ (by decide)) (caseNotHash K P _ (by decide))
    (caseNoHash K P _ (by decide)) (caseHash K P)

/-- C47: values read from a partial trie are the values of every trie with its root hash. -/
theorem C47_value (h : Live K M P kec s) (hi : s.hs[i]? = some t) (h' : Live K' M' P kec s')
    (hi' : s'.hs[i']? = some t') (hv : t.SmallValues) (hv' : t'.SmallValues) (hn : ¬ t.IsHash)
    (hn' : t'.NoHash) (he : (t.rootHash P kec s.state).map (·.1) =
      (t'.rootHash P kec s'.state).map (·.1)) {k : Key} (hk : k.length ≤ 127) {v : Bytes}
    (hg : t.get P (ofList k) = .ok (some v)) :
    t'.get P (ofList k) = .ok (some v) ∨ t.Collide kec t' := by
  refine (C47_view h hi h' hi' hv hv' hn hn' he).imp (fun g => ?_) id
  rw [h.get hi hk] at hg
  rw [h'.get hi' hk]
  exact View.get_some ((viewOf_iff (h.plain (List.mem_of_getElem? hi))
    (h'.plain (List.mem_of_getElem? hi'))).1 g) hg

example (K : Kind) (P : Profile) : (caseT K P 0).get P (ofList [1, 2]) = .ok (some [8]) ∨
    (caseT K P 2).Collide kec0 (caseT K P 0) :=
  C47_value (caseLive K P) (caseGet K P (by decide)) (caseLive K P) (caseGet K P (by decide))
    (caseSmall K P _ (by decide)) (caseSmall K P _ (by decide)) (caseNotHash K P _ (by decide))
    (caseNoHash K P _ (by decide)) (caseHash K P) (by decide)
    (by obtain ⟨P⟩ := P; cases K <;> cases P <;> decide +kernel)

/-- C47: a key that does not lead to a hash node of a partial trie has there the value (or is absent
there as) in every trie with its root hash.  In builds without overflow checks this is claimed for
keys that are not shorter than a path of the partial trie. -/
theorem C47_absent (h : Live K M P kec s) (hi : s.hs[i]? = some t) (h' : Live K' M' P kec s')
    (hi' : s'.hs[i']? = some t') (hv : t.SmallValues) (hv' : t'.SmallValues)
    (hn' : t'.NoHash) (he : (t.rootHash P kec s.state).map (·.1) =
      (t'.rootHash P kec s'.state).map (·.1)) {k : Key} (hk : k.length ≤ 127)
    (hq : ∀ q u, t.NodeAt q u → u.IsHash → ¬ q <+: k)
    (hP : P.overflowChecks = true ∨ ∀ q u, t.NodeAt q u → q.length ≤ k.length) :
    t.get P (ofList k) = t'.get P (ofList k) ∨ t.Collide kec t' := by
  have hn : ¬ t.IsHash := fun hh => hq _ _ (.here t) hh List.nil_prefix
  refine (C47_view h hi h' hi' hv hv' hn hn' he).imp (fun g => ?_) id
  rw [h.get hi hk, h'.get hi' hk]
  refine View.get_eq ((viewOf_iff (h.plain (List.mem_of_getElem? hi))
    (h'.plain (List.mem_of_getElem? hi'))).1 g) (fun q u hu hh => ?_) (hP.imp id fun hP q u hu => ?_)
  · obtain ⟨x, h1, rfl⟩ := nodeAt_of_at hu
    exact hq _ _ h1 ((isHash_plain x).1 hh)
  · obtain ⟨x, h1, rfl⟩ := nodeAt_of_at hu
    exact hP _ _ h1

/-- C34: a deletion that succeeds in a partial trie succeeds in the full trie and returns the same
value.  The result is a partial view of the full one, with the same root hash, exactly if no branch is
collapsed onto a hash node that stands for a leaf or an extension.  Otherwise the root hashes are
different, or there is a collision. -/
theorem C34_exact (h : Live K M P kec s) (hi : s.hs[i]? = some t) (hb : t.PathsAtMost 64)
    (h' : Live K' M' P' kec s') (hi' : s'.hs[i']? = some t') (hw : t'.ViewOf P kec t) {k : Key}
    (hk : k.length ≤ 127)
    {p : Trie K'.Ann} {o : Option Bytes} {st' : K'.State}
    (he : t'.delete P' (ofList k) s'.state = .ok ((p, o), st')) :
    ∃ u st, t.delete P (ofList k) s.state = .ok ((u, o), st) ∧
      (p.ViewOf P kec u ↔ ¬ t'.Strands t k) ∧
      (¬ t'.Strands t k →
        (p.rootHash P' kec st').map (·.1) = (u.rootHash P kec st).map (·.1)) ∧
      (t'.Strands t k → p.SmallValues → u.SmallValues →
        (p.rootHash P' kec st').map (·.1) = (u.rootHash P kec st).map (·.1) → p.Collide kec u) := by
  by_cases hl : t'.Strands t k
  · have h1 := h'.delete hi' hk
    rw [he] at h1
    rw [viewOf_iff (h'.plain (List.mem_of_getElem? hi')) (h.plain (List.mem_of_getElem? hi))] at hw
    obtain ⟨l, h2, h3⟩ := hw.delete_strand (h.shape (List.mem_of_getElem? hi)).2
      (strands_plain.2 hl) (LNode.deleteA_ok h1.symm)
    have h4 := h.delete_short hi hk ((plain_bound t).2 hb)
    rw [h2] at h4
    revert h4
    cases hx : t.delete P (ofList k) s.state with
    | error e => intro h; cases h
    | ok r =>
      obtain ⟨⟨u, o'⟩, st⟩ := r
      intro h4
      simp only [Except.map, Except.ok.injEq, Prod.mk.injEq] at h4
      obtain ⟨rfl, rfl⟩ := h4
      have l1 : Live K M P kec ⟨st, s.hs.set i u⟩ := by
        refine .step (c := .delete i k) (o := .val o') h hk (by cases K <;> cases M <;> trivial) ?_
        simp only [Sys.exec, exec_on hi, hx, R_bind_ok, R_pure]
      have l2 : Live K' M' P' kec ⟨st', s'.hs.set i' p⟩ := by
        refine .step (c := .delete i' k) (o := .val o') h' hk (by cases K' <;> cases M' <;> trivial) ?_
        simp only [Sys.exec, exec_on hi', he, R_bind_ok, R_pure]
      have g1 := Sys.set_get hi u
      have g2 := Sys.set_get hi' p
      have p1 := l1.plain (List.mem_of_getElem? g1)
      have p2 := l2.plain (List.mem_of_getElem? g2)
      refine ⟨u, st, rfl, iff_of_false (fun hv => ?_) (not_not.2 hl), fun hn => absurd hl hn,
        fun _ s1 s2 hr => ?_⟩
      · exact h3.not_agree ((viewOf_iff p2 p1).1 hv).agree
      · rw [l1.hash g1, l2.hash g2] at hr
        exact collide_plain ((rootHash_agree (small_plain p2 s1) (small_plain p1 s2) h3.not_hash.1
          h3.not_hash.2 (by simpa using hr)).resolve_left h3.not_agree)
  · obtain ⟨u, st, h1, h2, h3⟩ := C34_partial h hi h' hi' hw hk hl he
    exact ⟨u, st, h1, iff_of_true h2 hl, fun _ => h3, fun h => absurd h hl⟩

end

/-- C34: a deletion that collapses a branch onto a hash node that stands for a leaf. -/
example : (Trie.branch () (upd (upd (fun _ => .empty ()) 1 (.leaf () ⟨1, 1⟩ [7])) 2
      (.hash () (Vector.replicate 32 35))) [] : Trie Unit).Strands
    (Trie.branch () (upd (upd (fun _ => .empty ()) 1 (.leaf () ⟨1, 1⟩ [7])) 2
      (.leaf () ⟨1, 2⟩ (List.replicate 40 8))) [] : Trie Unit) [1, 1] :=
  ⟨[], 1, 2, [1], _, _, _, _, _, _, _, _, _, rfl, .here _, by decide, by
    intro l hl
    by_contra hc
    rw [not_or] at hc
    exact hl () (by simp [upd, hc.1, hc.2]), rfl, by decide +kernel, rfl,
    .branch _ _ _ 2 _ _ (.here _), trivial⟩

/-- C35: two different tries with the same root hash, for a bad hash function; they collide. -/
example : ∀ K : Kind, ∀ P : Profile, K.obs P kec0 [.fromIter exEntries, .clone 0,
    .insert 1 [1, 2, 1] (.val (List.replicate 40 7)), .hash 0, .hash 1, .eq 0 1] =
    .ok [.unit, .unit, .unit, .root (Vector.replicate 32 83), .root (Vector.replicate 32 83),
      .bool false] := by
  intro K ⟨P⟩; cases K <;> cases P <;> decide +kernel

example : (Trie.branch () (upd (fun _ => .empty ()) 2 (.leaf () ⟨3, 0x123⟩ (List.replicate 37 1)))
    [7] : Trie Unit).Collide kec0
    (Trie.branch () (upd (fun _ => .empty ()) 2 (.leaf () ⟨3, 0x123⟩ (List.replicate 37 2))) [7]) :=
  ⟨[2], _, _, .branch _ _ _ _ _ _ (.here _), .branch _ _ _ _ _ _ (.here _),
    id, id, by decide +kernel, by decide +kernel⟩

/-- C47: a partial trie with the root hash of the full trie; a present key, an absent key, and a key
that leads to a hash node of the partial trie. -/
example : ∀ K : Kind, ∀ P : Profile, K.obs P kec0 [.fromIter exEntries, .subset 0 [[1, 2, 1]],
    .hash 0, .hash 1, .get 1 [1, 2, 1], .get 0 [1, 2, 1], .get 1 [1, 3, 1], .get 0 [1, 3, 1],
    .get 1 [2, 2, 1], .get 0 [2, 2, 1]] =
    .ok [.unit, .unit, .root (Vector.replicate 32 83), .root (Vector.replicate 32 83),
      .val (some (List.replicate 40 2)), .val (some (List.replicate 40 2)), .val none, .val none,
      .val none, .val (some (List.replicate 40 3))] := by
  intro K ⟨P⟩; cases K <;> cases P <;> decide +kernel

end EthTrie
