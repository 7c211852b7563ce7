import Verif.Props.Cases
import Verif.Props.Cut
import Verif.Props.Replay
import Verif.Props.Subsets
import Verif.Spec.Hidden
import Verif.Subset.Join

/-!
# Properties C76 and C77: subsets for several lists of keys, and what exactly a subset contains

A subset for the keys of two lists has what the subsets for each of them have, and no more.  And the
contents of a subset, hashes included, are determined by the contents of the trie and the keys.
-/

namespace EthTrie

open Spec KMap LNode Nibbles

section

variable {K : Kind} {M : Mode} {P : Profile} {kec : Bytes → H256} {s : Sys K.Ann K.State}
  {i : Nat} {t : Trie K.Ann}

/-- C76: if subsets can be made for two lists of keys, one can be made for all keys.  Both are partial views
of it, and it has the values that are in one of them. -/
theorem C76_both (h : Live K M P kec s) (hi : s.hs[i]? = some t) {as bs : List Key}
    (ha : ∀ k ∈ as, k.length ≤ 127) (hb : ∀ k ∈ bs, k.length ≤ 127)
    (hf : as = [] ∨ bs = [] → s.FreshAt kec i) {u v : Trie K.Ann} {st st' : K.State}
    (hu : createTrieSubset P kec t (as.map ofList) s.state = .ok (.ok u, st))
    (hv : createTrieSubset P kec t (bs.map ofList) s.state = .ok (.ok v, st')) :
    ∃ w st'', createTrieSubset P kec t ((as ++ bs).map ofList) s.state = .ok (.ok w, st'') ∧
      u.ViewOf P kec w ∧ v.ViewOf P kec w ∧ ∀ k x, w.contents k = some (.val x) ↔
        u.contents k = some (.val x) ∨ v.contents k = some (.val x) := by
  have hab : ∀ k ∈ as ++ bs, k.length ≤ 127 := fun k hk => by
    rcases List.mem_append.1 hk with hk | hk
    · exact ha k hk
    · exact hb k hk
  obtain ⟨h1, _, x, h2, h3⟩ := h.subset_ok hi ha hu
  obtain ⟨g1, _, y, g2, g3⟩ := h.subset_ok hi hb hv
  obtain ⟨z, hz⟩ := LTracked.markAll_both h2 g2
  obtain ⟨w, st'', hw⟩ := h.subset_mk hi hab hz
  refine ⟨w, st'', hw, ?_⟩
  obtain ⟨k1, _, z', k2, k3⟩ := h.subset_ok hi hab hw
  rw [hz] at k2
  cases k2
  rw [standIn_fresh hi (fun e => hf (.inl e)) h2, LTracked.markAll_new h2] at h3
  rw [standIn_fresh hi (fun e => hf (.inr e)) g2, LTracked.markAll_new g2] at g3
  rw [standIn_fresh hi (fun e => hf (.inl (List.append_eq_nil_iff.1 e).1)) hz, LTracked.markAll_new hz] at k3
  refine ⟨?_, ?_, fun k x => ?_⟩
  · rw [viewOf_iff (h1.plain (by simp)) (k1.plain (by simp)), h3, k3]
    exact (LTracked.flagged_mono P _ _ _ fun k hk => List.mem_append_left _ hk).view
  · rw [viewOf_iff (g1.plain (by simp)) (k1.plain (by simp)), g3, k3]
    exact (LTracked.flagged_mono P _ _ _ fun k hk => List.mem_append_right _ hk).view
  · simp only [Trie.contents, h3, g3, k3]
    exact LTracked.subset_union _ _ _ _ _

/-- The subset for another key of the case. -/
theorem caseSubset' (K : Kind) (P : Profile) : ∃ t' st,
    createTrieSubset P kec0 (caseT K P 0) ([[2, 5, 6, 7]].map ofList) (caseS K P).state = .ok (.ok t', st) :=
  (fine_iff _).1 (by obtain ⟨P⟩ := P; cases K <;> cases P <;> decide +kernel)

example (K : Kind) (P : Profile) : ∃ w st, createTrieSubset P kec0 (caseT K P 0)
    ([[1, 2], [2, 5, 6, 7]].map ofList) (caseS K P).state = .ok (.ok w, st) :=
  have ⟨_, _, h1⟩ := caseSubset K P
  have ⟨_, _, h2⟩ := caseSubset' K P
  have ⟨w, st, h3, _⟩ := C76_both (caseLive K P) (caseGet K P (by decide)) (by decide) (by decide)
    (fun h => by rcases h with h | h <;> cases h) h1 h2
  ⟨w, st, h3⟩

/-- C76: the subset for all keys is the least one: it is a partial view of every partial view of the trie
that both subsets are partial views of. -/
theorem C76_least (h : Live K M P kec s) (hi : s.hs[i]? = some t) {as bs : List Key}
    (ha : ∀ k ∈ as, k.length ≤ 127) (hb : ∀ k ∈ bs, k.length ≤ 127)
    (hf : as = [] ∨ bs = [] → s.FreshAt kec i) {u v w : Trie K.Ann} {st st' st'' : K.State}
    (hu : createTrieSubset P kec t (as.map ofList) s.state = .ok (.ok u, st))
    (hv : createTrieSubset P kec t (bs.map ofList) s.state = .ok (.ok v, st'))
    (hw : createTrieSubset P kec t ((as ++ bs).map ofList) s.state = .ok (.ok w, st''))
    {K' : Kind} {M' : Mode} {s' : Sys K'.Ann K'.State} {j : Nat} {p : Trie K'.Ann}
    (h' : Live K' M' P kec s') (hj : s'.hs[j]? = some p) (hp : p.ViewOf P kec t)
    (hup : u.ViewOf P kec p) (hvp : v.ViewOf P kec p) : w.ViewOf P kec p := by
  have hab : ∀ k ∈ as ++ bs, k.length ≤ 127 := fun k hk => by
    rcases List.mem_append.1 hk with hk | hk
    · exact ha k hk
    · exact hb k hk
  have hpp := h'.plain (List.mem_of_getElem? hj)
  obtain ⟨h1, _, x, h2, h3⟩ := h.subset_ok hi ha hu
  obtain ⟨g1, _, y, g2, g3⟩ := h.subset_ok hi hb hv
  obtain ⟨k1, _, z, k2, k3⟩ := h.subset_ok hi hab hw
  rw [standIn_fresh hi (fun e => hf (.inl e)) h2, LTracked.markAll_new h2] at h3
  rw [standIn_fresh hi (fun e => hf (.inr e)) g2, LTracked.markAll_new g2] at g3
  rw [standIn_fresh hi (fun e => hf (.inl (List.append_eq_nil_iff.1 e).1)) k2, LTracked.markAll_new k2] at k3
  rw [viewOf_iff (h1.plain (by simp)) hpp, h3] at hup
  rw [viewOf_iff (g1.plain (by simp)) hpp, g3] at hvp
  rw [viewOf_iff hpp (h.plain (List.mem_of_getElem? hi))] at hp
  rw [viewOf_iff (k1.plain (by simp)) hpp, k3]
  exact LTracked.subset_join hp _ _ hup hvp

/-- With the trie itself for the partial view. -/
example (K : Kind) (P : Profile) : ∃ w st, createTrieSubset P kec0 (caseT K P 0)
    ((([[1, 2]] : List Key) ++ [[2, 5, 6, 7]]).map ofList) (caseS K P).state = .ok (.ok w, st) ∧
    w.ViewOf P kec0 (caseT K P 0) :=
  have ⟨_, _, h1⟩ := caseSubset K P
  have ⟨_, _, h2⟩ := caseSubset' K P
  have hc := caseGet K P (i := 0) (by decide)
  have hn : ∀ {ks : List Key}, ks ≠ [] → ks = [] → (caseS K P).FreshAt kec0 0 := fun h e => absurd e h
  have ⟨w, st, h3, _⟩ := C76_both (caseLive K P) hc (by decide) (by decide)
    (fun h => by rcases h with h | h <;> cases h) h1 h2
  ⟨w, st, h3, C76_least (caseLive K P) hc (by decide) (by decide)
    (fun h => by rcases h with h | h <;> cases h) h1 h2 h3 (caseLive K P) hc
    ((viewOf_iff ((caseLive K P).plain (List.mem_of_getElem? hc)) ((caseLive K P).plain
      (List.mem_of_getElem? hc))).2 (View.refl _ _))
    (C27_view (caseLive K P) hc (by decide) (hn (by simp)) h1)
    (C27_view (caseLive K P) hc (by decide) (hn (by simp)) h2)⟩

end

/-! ### What exactly a subset contains -/

section

variable {K : Kind} {M : Mode} {P : Profile} {kec : Bytes → H256} {s : Sys K.Ann K.State}
  {i : Nat} {t : Trie K.Ann}

theorem hidden_at {l : LNode} (hl : l.Canon) {ks : List Key} {q : Key}
    (hq : (absL l).Hidden kec ks q) : ∃ x y, At l q x ∧ x.enc kec = .hashed y := by
  obtain ⟨h1, _, J, hJ, h3⟩ := hq
  have hne : J ≠ [] := by rintro rfl; simp [node, rlpStr] at h3
  obtain ⟨⟨k, v⟩, hk⟩ := List.exists_mem_of_ne_nil _ hne
  have hkv := (hJ.2 k v).1 hk
  obtain ⟨x, hx⟩ := exists_at l q hl h1 ⟨k, by rw [KMap.sub] at hkv; rw [hkv]; simp⟩
  rw [← at_sub hx] at hJ hkv
  by_cases hh : ∃ y, x = .hash y
  · obtain ⟨y, rfl⟩ := hh
    exact ⟨_, y, hx, rfl⟩
  · have := (enc_spec kec x J (hx.canon hl) hJ).2.2 (by rintro rfl; simp at hkv) (fun y e => hh ⟨y, e⟩)
    refine ⟨x, kec (node kec J), hx, ?_⟩
    rw [this, hashIfLarge, decide_eq_true (by omega)]

theorem trieRoot_lists {l : LNode} (hl : l.Canon) {J J' : Entries} (hJ : Lists J (absL l))
    (hJ' : Lists J' (absL l)) : trieRoot kec J = trieRoot kec J' := by
  rw [← (enc_spec kec l J hl hJ).2.1, (enc_spec kec l J' hl hJ').2.1]

/-- The contents of a subset. -/
theorem flagged_contents {l : LNode} (hl : l.Canon) {ks : List Key}
    (hlen : P.overflowChecks = true ∨ ∀ k ∈ ks, ∀ q x, absL l q = some x → q.length ≤ k.length)
    (q : Key) (e : ValOrHash) :
    absL ((LTracked.flagged P l ks).subset kec) q = some e ↔
      (absL l q = some e ∧ ∀ p, p <+: q → ¬ (absL l).Hidden kec ks p) ∨
      ((absL l).Hides kec ks q ∧ ∃ J, Lists J ((absL l).sub q) ∧ e = .hash (trieRoot kec J)) := by
  have hv := LTracked.subset_view (kec := kec) (LTracked.flagged P l ks)
  rw [LTracked.flagged_node] at hv
  have hc := hv.cutOf hl
  generalize hu : (LTracked.flagged P l ks).subset kec = u at *
  -- a replaced node is hidden
  have new : ∀ q x, absL u q = some (.hash x) → absL l q = some (.hash x) ∨ (absL l).Hidden kec ks q := by
    intro q x hq
    rcases hc.keep _ _ hq with h1 | ⟨J, hJ, h1, h2, _⟩
    · exact .inl h1
    · exact (LTracked.subset_hash l ks q x (by rw [hu]; exact hq)).imp id fun h3 => ⟨h1, h3, J, hJ, h2⟩
  -- a hidden node is replaced
  have old : ∀ q, (absL l).Hidden kec ks q → ∃ p z, p <+: q ∧ absL u p = some (.hash z) := by
    intro q hq
    obtain ⟨x, y, h1, h2⟩ := hidden_at hl hq
    have := LTracked.subset_covers (P := P) h1 h2 ks fun k hk hp => ?_
    · rwa [hu] at this
    · rcases hp with hp | ⟨hP, q₀, j, rfl, _, h4⟩
      · exact hq.2.1 k hk hp
      · rcases hlen with h5 | h5
        · rw [h5] at hP; cases hP
        · obtain ⟨_, _, J, hJ, h6⟩ := hq
          have hne : J ≠ [] := by rintro rfl; simp [node, rlpStr] at h6
          obtain ⟨⟨r, v⟩, hr⟩ := List.exists_mem_of_ne_nil _ hne
          have := h5 k hk _ v ((hJ.2 r v).1 hr)
          simp only [List.length_append, List.length_replicate] at this
          omega
  -- nothing is below a hash
  have last : ∀ {l : LNode} {p q : Key} {x : H256}, absL l p = some (.hash x) → p <+: q → absL l q ≠ none →
      p = q := by
    rintro l p q x h1 ⟨r, rfl⟩ h2
    rw [hash_last _ _ _ _ h1 h2, List.append_nil]
  have ne : ∀ {q : Key}, (absL l).Hidden kec ks q → ∃ r, absL l (q ++ r) ≠ none := by
    rintro q ⟨_, _, J, hJ, h6⟩
    have hne : J ≠ [] := by rintro rfl; simp [node, rlpStr] at h6
    obtain ⟨⟨r, v⟩, hr⟩ := List.exists_mem_of_ne_nil _ hne
    exact ⟨r, by have := (hJ.2 r v).1 hr; rw [KMap.sub] at this; rw [this]; simp⟩
  have hashJ : ∀ {q : Key} {x : H256}, absL l q = some (.hash x) →
      ∃ J, Lists J ((absL l).sub q) ∧ x = trieRoot kec J := by
    intro q x hq
    refine ⟨[([], .hash x)], ⟨by simp, fun k v => ?_⟩, rfl⟩
    simp only [List.mem_singleton, Prod.mk.injEq, KMap.sub]
    constructor
    · rintro ⟨rfl, rfl⟩; rwa [List.append_nil]
    · intro h1
      have := last hq (List.prefix_append q k) (by rw [h1]; simp)
      have : k = [] := List.append_cancel_left (as := q) (by rw [List.append_nil]; exact this.symm)
      subst this
      rw [List.append_nil, hq] at h1
      cases h1
      exact ⟨rfl, rfl⟩
  constructor
  · intro hq
    have proper : ∀ p, p <+: q → p ≠ q → ¬ (absL l).Hidden kec ks p := by
      intro p hpq hne hh
      obtain ⟨p', z, h1, h2⟩ := old p hh
      have := last h2 (h1.trans hpq) (by rw [hq]; simp)
      subst this
      exact hne (hpq.eq_of_length (Nat.le_antisymm hpq.length_le h1.length_le))
    by_cases hh : (absL l).Hidden kec ks q
    · obtain ⟨p', z, h1, h2⟩ := old q hh
      have := last h2 h1 (by rw [hq]; simp)
      subst this
      rw [hq] at h2
      cases h2
      refine .inr ⟨⟨hh, proper⟩, ?_⟩
      rcases hc.keep _ _ hq with h3 | ⟨J, hJ, _, _, h4⟩
      · obtain ⟨J, hJ, rfl⟩ := hashJ h3
        exact ⟨J, hJ, rfl⟩
      · exact ⟨J, hJ, h4⟩
    · refine .inl ⟨?_, fun p hp => ?_⟩
      · rcases hc.keep _ _ hq with h3 | ⟨J, hJ, _, _, rfl⟩
        · exact h3
        · exact (new _ _ hq).resolve_right hh
      · by_cases e : p = q
        · rw [e]; exact hh
        · exact proper p hp e
  · rintro (⟨hq, hno⟩ | ⟨⟨hh, proper⟩, J, hJ, rfl⟩)
    · rcases hc.cover _ _ hq with h1 | ⟨p, x, hp, hx⟩
      · exact h1
      · rcases new _ _ hx with h2 | h2
        · have := last h2 hp (by rw [hq]; simp)
          subst this
          rw [hq] at h2
          cases h2
          exact hx
        · exact absurd h2 (hno p hp)
    · obtain ⟨p, z, hp, hz⟩ := old q hh
      have e : p = q := by
        by_contra e
        rcases new _ _ hz with h2 | h2
        · obtain ⟨r, hr⟩ := ne hh
          have := last h2 (hp.trans (List.prefix_append q r)) hr
          exact e (hp.eq_of_length (Nat.le_antisymm hp.length_le (by rw [this]; simp)))
        · exact proper p hp e h2
      subst e
      rw [hz]
      obtain ⟨x, _, hx, _⟩ := hidden_at hl hh
      rw [← at_sub hx] at hJ
      rcases hc.keep _ _ hz with h3 | ⟨J', hJ', _, _, h4⟩
      · obtain ⟨J', hJ', rfl⟩ := hashJ h3
        rw [← at_sub hx] at hJ'
        rw [trieRoot_lists (hx.canon hl) hJ hJ']
      · rw [← at_sub hx] at hJ'
        rw [h4, trieRoot_lists (hx.canon hl) hJ hJ']

/-- C77: what exactly a subset contains: the entries of the trie that are not below a node that no key leads to
and whose encoding has at least 32 bytes, and the hashes of the first such nodes on the way. -/
theorem C77_contents (h : Reached K M P kec s) (hi : s.hs[i]? = some t) {ks : List Key}
    (hk : ∀ k ∈ ks, k.length ≤ 127) (hf : ks = [] → s.FreshAt kec i)
    (hlen : P.overflowChecks = true ∨ ∀ k ∈ ks, ∀ q x, t.contents q = some x → q.length ≤ k.length)
    {u : Trie K.Ann} {st : K.State}
    (he : createTrieSubset P kec t (ks.map ofList) s.state = .ok (.ok u, st)) (q : Key) (e : ValOrHash) :
    u.contents q = some e ↔
      (t.contents q = some e ∧ ∀ p, p <+: q → ¬ t.contents.Hidden kec ks p) ∨
      (t.contents.Hides kec ks q ∧ ∃ J, Lists J (t.contents.sub q) ∧ e = .hash (trieRoot kec J)) := by
  obtain ⟨_, _, tr, h2, h3⟩ := h.live.subset_ok hi hk he
  rw [standIn_fresh hi hf h2, LTracked.markAll_new h2] at h3
  simp only [Trie.contents, h3] at hlen ⊢
  exact flagged_contents (h.canon (List.mem_of_getElem? hi)).1 hlen q e

/-- With overflow checks, for keys of any lengths. -/
example (K : Kind) : ∃ u st, createTrieSubset .debug kec0 (caseT K .debug 0) ([[1, 2]].map ofList)
    (caseS K .debug).state = .ok (.ok u, st) ∧ ∀ q e, u.contents q = some e ↔
      ((caseT K .debug 0).contents q = some e ∧
        ∀ p, p <+: q → ¬ (caseT K .debug 0).contents.Hidden kec0 [[1, 2]] p) ∨
      ((caseT K .debug 0).contents.Hides kec0 [[1, 2]] q ∧
        ∃ J, Lists J ((caseT K .debug 0).contents.sub q) ∧ e = .hash (trieRoot kec0 J)) :=
  have ⟨u, st, h⟩ := caseSubset K .debug
  ⟨u, st, h, C77_contents (caseReached K .debug) (caseGet K .debug (by decide)) (by decide)
    (fun e => by cases e) (.inl rfl) h⟩

/-- In every build, for keys of one length. -/
example (K : Kind) (P : Profile) : ∃ u st, createTrieSubset P kec0 (K.trie P fixedProg 0)
    ([[1, 2], [4, 4]].map ofList) (K.after P fixedProg).state = .ok (.ok u, st) ∧ ∀ q e,
    u.contents q = some e ↔ ((K.trie P fixedProg 0).contents q = some e ∧
        ∀ p, p <+: q → ¬ (K.trie P fixedProg 0).contents.Hidden kec0 [[1, 2], [4, 4]] p) ∨
      ((K.trie P fixedProg 0).contents.Hides kec0 [[1, 2], [4, 4]] q ∧
        ∃ J, Lists J ((K.trie P fixedProg 0).contents.sub q) ∧ e = .hash (trieRoot kec0 J)) :=
  have ⟨u, st, h, _⟩ := fixedCovers K P
  ⟨u, st, h, C77_contents (fixedReached K P) (fixedGet K P) (by decide) (fun e => by cases e)
    (.inr fun k hk q x hq => by
      rw [(by decide : ∀ k ∈ ([[1, 2], [4, 4]] : List Key), k.length = 2) k hk]
      exact (fixedLen K P).le q (by rw [hq]; simp)) h⟩

end

/-- Subsets for two keys and for both of them, which is none of the two and not the full trie. -/
example : ∀ K : Kind, ∀ P : Profile, K.obs P kec0 [.fromIter caseXs, .subset 0 [[2, 5, 5]],
    .subset 0 [[2, 5, 6, 7]], .subset 0 [[2, 5, 5], [2, 5, 6, 7]], .eq 1 3, .eq 2 3, .eq 0 3,
    .get 3 [2, 5, 5], .get 3 [2, 5, 6, 7], .subset 1 [[2, 5, 6, 7]]] =
    .ok [.unit, .unit, .unit, .unit, .bool false, .bool false, .bool false,
      .val (some (List.replicate 40 1)), .val (some [2]), .err (.unexpectedKey (ofList [7]))] := by
  intro K ⟨P⟩; cases K <;> cases P <;> decide +kernel

end EthTrie
