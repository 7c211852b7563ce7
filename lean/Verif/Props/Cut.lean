import Verif.Props.Cases
import Verif.Props.Commit
import Verif.Props.Subsets
import Verif.Subset.Cut

/-!
# Property C64: partial tries put together by hand

`README.md` and `examples/hash_nodes.rs` describe how to make a partial trie: insert the entries that are
needed and, for every sub-trie that is not, its hash.  Here is when this gives a trie with the root hash
of the full one.
-/

namespace EthTrie

open Spec KMap LNode Nibbles

section

variable {K : Kind} {M : Mode} [M.Safe] {P : Profile} {kec : Bytes → H256} {s : Sys K.Ann K.State}
  {i : Nat} {t : Trie K.Ann} {K' : Kind} {M' : Mode} [M'.Safe] {P' : Profile} {s' : Sys K'.Ann K'.State}
  {i' : Nat} {p : Trie K'.Ann}

omit [M.Safe] [M'.Safe] in
/-- C64: whether a trie is another one with sub-tries replaced by hash nodes can be told from the
contents. -/
theorem C64_iff (h : Reached K M P kec s) (hi : s.hs[i]? = some t) (h' : Reached K' M' P' kec s')
    (hi' : s'.hs[i']? = some p) : p.ViewOf P kec t ↔ CutOf kec t.contents p.contents := by
  have hp := h'.live.plain (List.mem_of_getElem? hi')
  have ht := h.live.plain (List.mem_of_getElem? hi)
  rw [viewOf_iff hp ht, view_iff_cutOf (h'.canon (List.mem_of_getElem? hi')).1
    (h.canon (List.mem_of_getElem? hi)).1]
  rfl

example (K : Kind) (P : Profile) : (caseT K P 2).ViewOf P kec0 (caseT K P 0) ↔
    CutOf kec0 (caseT K P 0).contents (caseT K P 2).contents :=
  C64_iff (caseReached K P) (caseGet K P (by decide)) (caseReached K P) (caseGet K P (by decide))

/-- C64: a trie into which, in any way, the entries of another trie were put except those below some
nodes with encodings of at least 32 bytes, and the hashes of these nodes, has the root hash of the other
trie. -/
theorem C64_root (h : Reached K M P kec s) (hi : s.hs[i]? = some t) (h' : Reached K' M' P' kec s')
    (hi' : s'.hs[i']? = some p) (hc : CutOf kec t.contents p.contents) :
    (p.rootHash P' kec s'.state).map (·.1) = (t.rootHash P kec s.state).map (·.1) :=
  C26_live h.live hi h'.live hi' ((C64_iff h hi h' hi').2 hc)

example (K : Kind) (P : Profile) : ((caseT K P 2).rootHash P kec0 (caseS K P).state).map (·.1) =
    ((caseT K P 0).rootHash P kec0 (caseS K P).state).map (·.1) :=
  C64_root (caseReached K P) (caseGet K P (by decide)) (caseReached K P) (caseGet K P (by decide))
    ((C64_iff (caseReached K P) (caseGet K P (by decide)) (caseReached K P) (caseGet K P (by decide))).1 (caseView K P))

/-- C64: nothing else gives the same root hash, unless the encodings of two nodes collide. -/
theorem C64_only (h : Reached K M P kec s) (hi : s.hs[i]? = some t) (h' : Reached K' M' P' kec s')
    (hi' : s'.hs[i']? = some p) (hv : t.SmallValues) (hv' : p.SmallValues) (hn : t.NoHash)
    (hr : p.contents [] = none ∨ ∃ v, p.contents [] = some (.val v))
    (he : (p.rootHash P' kec s'.state).map (·.1) = (t.rootHash P kec s.state).map (·.1)) :
    CutOf kec t.contents p.contents ∨ p.Collide kec t := by
  have hh : ¬ p.IsHash := by
    intro hh
    cases p with
    | hash a x => 
      have : (Trie.hash a x).contents [] = some (.hash x) := rfl
      rw [this] at hr
      rcases hr with hr | ⟨v, hr⟩ <;> cases hr
    | _ => exact hh
  refine (C47_view h'.live hi' h.live hi hv' hv hh hn he).imp (fun g => ?_) id
  rw [← C64_iff h hi h' hi']
  rw [viewOf_iff (h'.live.plain (List.mem_of_getElem? hi')) (h.live.plain (List.mem_of_getElem? hi))] at g ⊢
  exact g

example (K : Kind) (P : Profile) : CutOf kec0 (caseT K P 0).contents (caseT K P 2).contents ∨
    (caseT K P 2).Collide kec0 (caseT K P 0) :=
  C64_only (caseReached K P) (caseGet K P (by decide)) (caseReached K P) (caseGet K P (by decide))
    (caseSmall K P _ (by decide)) (caseSmall K P _ (by decide)) (caseNoHash K P _ (by decide))
    (.inl ((caseLists₂ K P).none_of (by decide))) (C26_live (caseLive K P) (caseGet K P (by decide)) (caseLive K P)
      (caseGet K P (by decide)) (caseView K P))

end

theorem putAll_of_lists {xs : List (Key × ValOrHash)} {m : KMap} (h : Lists xs m) :
    KMap.empty.putAll xs = m := by
  funext k
  obtain ⟨h1, h2⟩ := putAll_lists xs KMap.empty h.1 k
  cases hm : m k with
  | some v => exact h1 v ((h.2 k v).2 hm)
  | none =>
    refine h2 fun hk => ?_
    obtain ⟨⟨a, b⟩, h3, rfl⟩ := List.mem_map.1 hk
    rw [(h.2 a b).1 h3] at hm
    cases hm

theorem putsOK_free : ∀ (xs : List (Key × ValOrHash)) (m : KMap), (∀ x ∈ xs, x.1.length ≤ 127) →
    xs.Pairwise (fun x y => ¬ x.1 <+: y.1 ∧ ¬ y.1 <+: x.1) →
    (∀ x ∈ xs, ∀ q, m q ≠ none → ¬ x.1 <+: q ∧ ¬ q <+: x.1) → m.PutsOK xs
  | [], _, _, _, _ => trivial
  | (k, v) :: xs, m, hl, hp, hm => by
    have hk := hm (k, v) (by simp)
    have hb : ¬ m.Below k := by
      rintro ⟨d, r, h⟩
      exact (hk _ h).1 (List.prefix_append _ _)
    refine ⟨hl (k, v) (by simp), ⟨?_, ?_, fun h => absurd h hb, fun _ _ => .inr (.inl hb), ?_⟩, ?_⟩
    · intro q h hq hqk
      exact (hk q (by rw [hq]; simp)).2 hqk
    · intro q hq hqk
      exact absurd hqk (hk q (by rw [hq]; simp)).2
    · intro x _
      refine ⟨?_, hb⟩
      by_contra h
      exact (hk k h).1 List.prefix_rfl
    · refine putsOK_free xs _ (fun x hx => hl x (by simp [hx])) (List.pairwise_cons.1 hp).2 ?_
      intro x hx q hq
      simp only [KMap.put] at hq
      split at hq
      · rename_i e
        subst e
        exact ((List.pairwise_cons.1 hp).1 x hx).symm
      · exact hm x (by simp [hx]) q hq

/-- What is left of a program that builds two tries and hashes them. -/
theorem build_two (K : Kind) (P : Profile) (kec : Bytes → H256) {xs ys : List (Key × ValOrHash)} {m m' : KMap}
    (hx : Lists xs m) (hy : Lists ys m') (hlx : ∀ x ∈ xs, x.1.length ≤ 127) (hly : ∀ x ∈ ys, x.1.length ≤ 127)
    (hfx : xs.Pairwise fun x y => ¬ x.1 <+: y.1 ∧ ¬ y.1 <+: x.1)
    (hfy : ys.Pairwise fun x y => ¬ x.1 <+: y.1 ∧ ¬ y.1 <+: x.1) :
    K.obs P kec [.fromIter xs, .fromIter ys, .hash 0, .hash 1] =
      .ok [.unit, .unit, .root (trieRoot kec xs), .root (trieRoot kec ys)] ∧
    ∃ s, Reached K .noEmptySubset P kec s ∧ ∃ (i : Nat) (t : Trie K.Ann) (i' : Nat) (p : Trie K.Ann), s.hs[i]? = some t ∧ s.hs[i']? = some p ∧
      t.contents = m ∧ p.contents = m' := by
  have hs : SupportedRun P kec (Kind.start K).contents [.fromIter xs, .fromIter ys, .hash 0, .hash 1] := by
    refine ⟨putsOK_free _ _ hlx hfx fun _ _ _ h => absurd rfl h, fun _ _ _ =>
      ⟨putsOK_free _ _ hly hfy fun _ _ _ h => absurd rfl h, fun _ _ _ => ⟨trivial, fun _ _ _ =>
        ⟨trivial, fun _ _ _ => trivial⟩⟩⟩⟩
  obtain ⟨s, os, h1, h2, h3⟩ := Reached.run (M := .noEmptySubset) _
    (.start (K := K) (P := P) (kec := kec)) hs fun c hc => by
      simp only [List.mem_cons, List.not_mem_nil, or_false] at hc
      cases K <;> rcases hc with rfl | rfl | rfl | rfl <;> trivial
  have h0 : (Kind.start K).contents = [] := rfl
  rw [h0] at h2
  generalize hms : s.contents = ms at h2
  cases h2 with | cons e1 h2 =>
  cases h2 with | cons e2 h2 =>
  cases h2 with | cons e3 h2 =>
  cases h2 with | cons e4 h2 =>
  cases h2
  obtain ⟨rfl, rfl⟩ := e1
  obtain ⟨rfl, rfl⟩ := e2
  obtain ⟨⟨J, hJ, rfl⟩, rfl⟩ := e3
  obtain ⟨⟨J', hJ', rfl⟩, rfl⟩ := e4
  rw [putAll_of_lists hx] at hJ
  rw [putAll_of_lists hy] at hJ'
  rw [putAll_of_lists hx, putAll_of_lists hy] at hms
  have h5 : ∃ t ∈ s.hs, t.contents = m := by
    have : m ∈ s.contents := by rw [hms]; simp
    simpa only [Sys.contents, List.mem_map] using this
  have h6 : ∃ t ∈ s.hs, t.contents = m' := by
    have : m' ∈ s.contents := by rw [hms]; simp
    simpa only [Sys.contents, List.mem_map] using this
  obtain ⟨t, ht, rfl⟩ := h5
  obtain ⟨p, hp, rfl⟩ := h6
  obtain ⟨i, hi⟩ := List.mem_iff_getElem?.1 ht
  obtain ⟨i', hi'⟩ := List.mem_iff_getElem?.1 hp
  have ct := (h3.canon ht).1
  have cp := (h3.canon hp).1
  have e1 := rootHash_spec kec (J := J) ct hJ
  have e2 := rootHash_spec kec (J := J') cp hJ'
  have e3 := rootHash_spec kec (J := xs) ct hx
  have e4 := rootHash_spec kec (J := ys) cp hy
  refine ⟨?_, s, h3, i, t, i', p, hi, hi', rfl, rfl⟩
  rw [Kind.obs, Kind.run, h1, ← e3, ← e1, ← e2, ← e4]
  rfl

/-- C64 for programs: a trie built from entries, and one built from those of the entries that are needed
and the hashes of sub-tries with the others, have the same root hash. -/
theorem C64_build (K : Kind) (P : Profile) (kec : Bytes → H256) {xs ys : List (Key × ValOrHash)} {m m' : KMap}
    (hx : Lists xs m) (hy : Lists ys m') (hlx : ∀ x ∈ xs, x.1.length ≤ 127) (hly : ∀ x ∈ ys, x.1.length ≤ 127)
    (hfx : xs.Pairwise fun x y => ¬ x.1 <+: y.1 ∧ ¬ y.1 <+: x.1)
    (hfy : ys.Pairwise fun x y => ¬ x.1 <+: y.1 ∧ ¬ y.1 <+: x.1) (hc : CutOf kec m m') :
    K.obs P kec [.fromIter xs, .fromIter ys, .hash 0, .hash 1] =
      .ok [.unit, .unit, .root (trieRoot kec xs), .root (trieRoot kec xs)] := by
  obtain ⟨h1, s, h3, i, t, i', p, hi, hi', rfl, rfl⟩ := build_two K P kec hx hy hlx hly hfx hfy
  have ct := (h3.canon (List.mem_of_getElem? hi)).1
  have cp := (h3.canon (List.mem_of_getElem? hi')).1
  have e := ((view_iff_cutOf (kec := kec) cp ct).2 hc).rootHash
  rw [rootHash_spec kec ct hx, rootHash_spec kec cp hy] at e
  rw [h1, e]

theorem small_of_contents {α : Type} : ∀ (t : Trie α),
    (∀ k v, t.contents k = some (.val v) → v.length < 2 ^ 64) → t.SmallValues := by
  intro t
  induction t with
  | empty a => intro _; trivial
  | hash a h => intro _; trivial
  | branch a cs v ih =>
    intro h
    refine ⟨?_, fun i => ih i fun k w hk => h (i :: k) w hk⟩
    by_cases hv : v = []
    · subst hv; simp
    · exact h [] v (by simp [Trie.contents, Trie.plain, hv])
  | ext a n c ih => exact fun h => ih fun k w hk => h (n.toList ++ k) w (by
      simp only [Trie.contents, Trie.plain, absL_ext_append]; exact hk)
  | leaf a n v => exact fun h => h n.toList v (by simp [Trie.contents, Trie.plain, absL_leaf])

theorem noHash_of_contents {α : Type} {t : Trie α} (h : ∀ k x, t.contents k ≠ some (.hash x)) :
    t.NoHash := by
  have aux : ∀ {t u : Trie α} {q : Key}, t.NodeAt q u → u.IsHash → ∃ x, t.contents q = some (.hash x) := by
    intro t u q hu hh
    induction hu with
    | here t =>
      cases t with
      | hash a x => exact ⟨x, rfl⟩
      | _ => exact hh.elim
    | branch a cs v d q u _ ih => exact ih hh
    | ext a n c q u _ ih =>
      obtain ⟨x, hx⟩ := ih hh
      exact ⟨x, by simp only [Trie.contents, Trie.plain, absL_ext_append]; exact hx⟩
  intro q u hu hh
  obtain ⟨x, hx⟩ := aux hu hh
  exact h q x hx

/-- C64 for programs, the other direction: if the root hashes are equal then the sub-tries were replaced
as they should be, or there is a collision. -/
theorem C64_build_only (K : Kind) (P : Profile) (kec : Bytes → H256) {xs ys : List (Key × ValOrHash)}
    {m m' : KMap} (hx : Lists xs m) (hy : Lists ys m') (hlx : ∀ x ∈ xs, x.1.length ≤ 127)
    (hly : ∀ x ∈ ys, x.1.length ≤ 127) (hfx : xs.Pairwise fun x y => ¬ x.1 <+: y.1 ∧ ¬ y.1 <+: x.1)
    (hfy : ys.Pairwise fun x y => ¬ x.1 <+: y.1 ∧ ¬ y.1 <+: x.1)
    (hvx : ∀ x ∈ xs, ∃ v, x.2 = .val v ∧ v.length < 2 ^ 64)
    (hvy : ∀ y ∈ ys, ∀ v, y.2 = .val v → v.length < 2 ^ 64) (hr : ∀ y ∈ ys, y.1 ≠ []) :
    ∃ a b, K.obs P kec [.fromIter xs, .fromIter ys, .hash 0, .hash 1] =
      .ok [.unit, .unit, .root a, .root b] ∧
      (a = b → CutOf kec m m' ∨ Collide kec m' m) := by
  obtain ⟨h1, s, h3, i, t, i', p, hi, hi', rfl, rfl⟩ := build_two K P kec hx hy hlx hly hfx hfy
  refine ⟨_, _, h1, fun e => ?_⟩
  refine (C64_only h3 hi h3 hi' (small_of_contents t fun k v hk => ?_) (small_of_contents p fun k v hk => ?_)
    (noHash_of_contents fun k x hk => ?_) (.inl ?_) ?_).imp id ?_
  · obtain ⟨w, h4, h5⟩ := hvx _ ((hx.2 k (.val v)).2 hk)
    cases h4
    exact h5
  · exact hvy _ ((hy.2 k (.val v)).2 hk) v rfl
  · obtain ⟨w, h4, -⟩ := hvx _ ((hx.2 k (.hash x)).2 hk)
    cases h4
  · cases hk : p.contents [] with
    | none => rfl
    | some v => exact absurd rfl (hr _ ((hy.2 [] v).2 hk))
  · rw [C21_root h3 hi hx, C21_root h3 hi' hy, e]
  · intro h4
    exact h4.contents (h3.canon (List.mem_of_getElem? hi')).1 (h3.canon (List.mem_of_getElem? hi)).1

/-- The contents of `C64_build`'s example: a value at `0x0` that is not needed and one at `0x1` that is. -/
theorem cutOf_two (kec : Bytes → H256) (v w : Bytes) (hv : 32 ≤ (node kec [([], .val v)]).length) :
    CutOf kec (KMap.empty.putAll [([0], .val v), ([1], .val w)])
      (KMap.empty.putAll [([0], .hash (trieRoot kec [([], .val v)])), ([1], .val w)]) := by
  refine ⟨fun k x hk => ?_, fun k x hk => ?_⟩
  · simp only [putAll, KMap.put, KMap.empty] at hk
    split at hk
    · rename_i e
      subst e
      cases hk
      exact .inl rfl
    · split at hk
      · rename_i e
        subst e
        cases hk
        refine .inr ⟨[([], .val v)], ⟨by simp, fun k x => ?_⟩, .inl (.inr ⟨[], 0, rfl, .inr ⟨0, 1, [], [],
          by decide, by simp [putAll, KMap.put], by simp [putAll, KMap.put]⟩⟩), hv, rfl⟩
        simp only [List.mem_singleton, Prod.mk.injEq, KMap.sub, putAll, KMap.put, KMap.empty,
          List.cons_append, List.nil_append, List.cons.injEq, true_and]
        by_cases hk : k = [] <;> simp [hk, eq_comm]
      · cases hk
  · simp only [putAll, KMap.put, KMap.empty] at hk
    split at hk
    · rename_i e
      subst e
      cases hk
      exact .inl rfl
    · split at hk
      · rename_i e
        subst e
        exact .inr ⟨[0], trieRoot kec [([], .val v)], List.prefix_rfl, rfl⟩
      · cases hk

theorem lists_one {J : Entries} {m : KMap} {x : ValOrHash} (hJ : Lists J m)
    (hm : ∀ k, m k = if k = [] then some x else none) : J = [([], x)] := by
  have hmem : ∀ k v, (k, v) ∈ J ↔ k = [] ∧ v = x := by
    intro k v
    rw [hJ.2, hm]
    by_cases hk : k = [] <;> simp [hk, eq_comm]
  match J, hJ, hmem with
  | [], _, hmem => exact absurd ((hmem [] x).2 ⟨rfl, rfl⟩) (by simp)
  | [(a, b)], _, hmem =>
    obtain ⟨rfl, rfl⟩ := (hmem a b).1 (by simp)
    rfl
  | (a, b) :: (c, d) :: J, hJ, hmem =>
    obtain ⟨rfl, rfl⟩ := (hmem a b).1 (by simp)
    obtain ⟨rfl, rfl⟩ := (hmem c d).1 (by simp)
    have := hJ.1
    simp at this

/-- A leaf with an encoding of exactly 32 bytes replaced by its hash. -/
example (K : Kind) (P : Profile) (kec : Bytes → H256) (w : Bytes) :
    K.obs P kec [.fromIter [([0], .val (List.replicate 29 7)), ([1], .val w)],
      .fromIter [([0], .hash (trieRoot kec [([], .val (List.replicate 29 7))])), ([1], .val w)],
      .hash 0, .hash 1] =
      .ok [.unit, .unit, .root (trieRoot kec [([0], .val (List.replicate 29 7)), ([1], .val w)]),
        .root (trieRoot kec [([0], .val (List.replicate 29 7)), ([1], .val w)])] :=
  C64_build K P kec (lists_putAll _ (by simp)) (lists_putAll _ (by simp)) (by simp) (by simp) (by simp)
    (by simp) (cutOf_two kec (List.replicate 29 7) w (by simp only [node]; decide +kernel))

/-- C64, an example that fails for every hash function (the warning in `examples/hash_nodes.rs:96-98`):
a smaller leaf is replaced by its hash. -/
theorem C64_small (K : Kind) (P : Profile) (kec : Bytes → H256) :
    ∃ a b, K.obs P kec [.fromIter [([0], .val (List.replicate 28 7)), ([1], .val [8])],
      .fromIter [([0], .hash (trieRoot kec [([], .val (List.replicate 28 7))])), ([1], .val [8])],
      .hash 0, .hash 1] = .ok [.unit, .unit, .root a, .root b] ∧
      (a = b → Collide kec
        (KMap.empty.putAll [([0], .hash (trieRoot kec [([], .val (List.replicate 28 7))])), ([1], .val [8])])
        (KMap.empty.putAll [([0], .val (List.replicate 28 7)), ([1], .val [8])])) := by
  obtain ⟨a, b, h1, h2⟩ := C64_build_only K P kec (xs := [([0], .val (List.replicate 28 7)), ([1], .val [8])])
    (ys := [([0], .hash (trieRoot kec [([], .val (List.replicate 28 7))])), ([1], .val [8])])
    (m := KMap.empty.putAll [([0], .val (List.replicate 28 7)), ([1], .val [8])])
    (m' := KMap.empty.putAll [([0], .hash (trieRoot kec [([], .val (List.replicate 28 7))])), ([1], .val [8])])
    (lists_putAll _ (by simp)) (lists_putAll _ (by simp))
    (by simp) (by simp) (by simp) (by simp) (by simp) (by simp) (by simp)
  refine ⟨a, b, h1, fun e => (h2 e).resolve_left fun hc => ?_⟩
  rcases hc.keep [0] (.hash (trieRoot kec [([], .val (List.replicate 28 7))])) rfl with h | ⟨J, hJ, -, hlen, -⟩
  · cases h
  · rw [lists_one (x := .val (List.replicate 28 7)) hJ fun k => ?_] at hlen
    · revert hlen
      simp only [node]
      decide +kernel
    · simp only [KMap.sub, putAll, KMap.put, KMap.empty, List.cons_append, List.nil_append, List.cons.injEq]
      simp

/-- C64, another one: a hash in the place of a sub-trie, but one nibble too early. -/
theorem C64_inside (K : Kind) (P : Profile) (kec : Bytes → H256) (v w : Bytes) (hv : v.length < 2 ^ 64)
    (hw : w.length < 2 ^ 64) :
    ∃ a b, K.obs P kec [.fromIter [([0, 1, 2], .val v), ([0, 1, 3], .val w)],
      .fromIter [([0], .hash (trieRoot kec [([1, 2], .val v), ([1, 3], .val w)]))],
      .hash 0, .hash 1] = .ok [.unit, .unit, .root a, .root b] ∧
      (a = b → Collide kec
        (KMap.empty.putAll [([0], .hash (trieRoot kec [([1, 2], .val v), ([1, 3], .val w)]))])
        (KMap.empty.putAll [([0, 1, 2], .val v), ([0, 1, 3], .val w)])) := by
  obtain ⟨a, b, h1, h2⟩ := C64_build_only K P kec (xs := [([0, 1, 2], .val v), ([0, 1, 3], .val w)])
    (ys := [([0], .hash (trieRoot kec [([1, 2], .val v), ([1, 3], .val w)]))])
    (m := KMap.empty.putAll [([0, 1, 2], .val v), ([0, 1, 3], .val w)])
    (m' := KMap.empty.putAll [([0], .hash (trieRoot kec [([1, 2], .val v), ([1, 3], .val w)]))])
    (lists_putAll _ (by simp)) (lists_putAll _ (by simp))
    (by simp) (by simp) (by simp) (by simp) (by simpa using ⟨hv, hw⟩) (by simp) (by simp)
  refine ⟨a, b, h1, fun e => (h2 e).resolve_left fun hc => ?_⟩
  have hm : ∀ k, KMap.empty.putAll [([0, 1, 2], .val v), ([0, 1, 3], .val w)] k ≠ none →
      k = [0, 1, 2] ∨ k = [0, 1, 3] := by
    intro k hk
    by_contra hne
    rw [not_or] at hne
    simp [putAll, KMap.put, KMap.empty, hne.1, hne.2] at hk
  rcases hc.keep [0] (.hash (trieRoot kec [([1, 2], .val v), ([1, 3], .val w)])) rfl with
    h | ⟨J, -, (h | ⟨q, d, h, g | ⟨x, y, r, s, hxy, hx, hy⟩⟩) | ⟨x, y, r, s, hxy, hx, hy⟩ | ⟨h, -⟩, -, -⟩
  · cases h
  · cases h
  · obtain ⟨rfl, -⟩ := List.append_inj' (s₁ := []) (t₁ := [0]) h rfl
    exact g rfl
  · obtain ⟨rfl, -⟩ := List.append_inj' (s₁ := []) (t₁ := [0]) h rfl
    rcases hm _ hx with e | e <;> rcases hm _ hy with e' | e' <;>
      simp only [List.nil_append, List.cons.injEq] at e e' <;> exact hxy (e.1.trans e'.1.symm)
  · rcases hm _ hx with e | e <;> rcases hm _ hy with e' | e' <;>
      simp only [List.cons_append, List.nil_append, List.cons.injEq] at e e' <;>
      exact hxy (e.2.1.trans e'.2.1.symm)
  · exact h rfl

end EthTrie
