import Verif.Props.Contents
import Verif.Trie.UndoExact

/-!
# Properties C14, C15 and C17: the exact outcome of insertions and deletions

For every key of at most 127 nibbles and every canonical trie in a `Live` state, that is, a state of any
program.  `KMap.Lands`, `KMap.insertExact` and `KMap.deleteExact` (`Verif/Spec/Exact.lean`) are stated
in terms of the entries only.
-/

namespace EthTrie

open Spec KMap LNode Nibbles

variable {K : Kind} {M : Mode} {P : Profile} {kec : Bytes → H256} {s : Sys K.Ann K.State} {i : Nat}
  {t : Trie K.Ann}

/-! ## C14 -/

/-- C14, what `insert` does for every key and value on a canonical trie: it acts on exactly one key `q`,
the given one or, if that ends inside a run of nibbles, the end of the run; it then panics or changes the
contents as `insertExact` says; and the result is canonical exactly if the insertion is `InsertClean`. -/
theorem C14_exact (h : Live K M P kec s) (hi : s.hs[i]? = some t) (hc : t.Canonical) (k : Key)
    (hk : k.length ≤ 127) (v : ValOrHash) :
    ∃ q, (∀ r, t.contents.Lands k r ↔ r = q) ∧
      (t.insert P (ofList k) v s.state).map (fun r => r.1.contents) = t.contents.insertExact q v ∧
      ∀ t' st, t.insert P (ofList k) v s.state = .ok (t', st) →
        (t'.Canonical ↔ t.contents.InsertClean q v) := by
  have hc := plain_of_canonical t hc
  have hp := h.insert hi hk v
  obtain ⟨q, h1, h2⟩ := insert_exact v t.plain k hc
  refine ⟨q, fun r => ⟨fun hr => hr.unique h1, fun e => e ▸ h1⟩, ?_, fun t' st e => ?_⟩
  · rw [Trie.contents, ← h2, ← hp]
    cases t.insert P (ofList k) v s.state <;> rfl
  · rw [e] at hp
    rw [canonical_iff]
    exact (insert_clean v t.plain k q t'.plain hc h1 hp.symm).1

/-- A key that is a prefix of stored keys. -/
example (K : Kind) (P : Profile) : ∃ q, (∀ r, (caseT K P 0).contents.Lands [2, 5] r ↔ r = q) ∧
    ((caseT K P 0).insert P (ofList [2, 5]) (.val [6]) (caseS K P).state).map (fun r => r.1.contents) =
      (caseT K P 0).contents.insertExact q (.val [6]) ∧
    ∀ t' st, (caseT K P 0).insert P (ofList [2, 5]) (.val [6]) (caseS K P).state = .ok (t', st) →
      (t'.Canonical ↔ (caseT K P 0).contents.InsertClean q (.val [6])) :=
  C14_exact (caseLive K P) (caseGet K P (by decide)) (caseCanonical K P _ (by decide))
    _ (by decide) _

theorem insertOK_of_exact {m : KMap} {k q : Key} {v : ValOrHash} (h1 : Lands m k q)
    (h2 : insertExact m q v = .ok (m.put k v)) : InsertOK m k v := by
  have hq : q = k ∧ ¬ m.HashOn q ∧ (∀ x, v = .hash x → m q = none ∧ ¬ m.Below q) ∧
      m.stored q v = m.put k v := by
    have hH : ¬ m.HashOn q := fun hH => by
      unfold insertExact at h2
      rw [if_pos hH] at h2
      cases h2
    have hst : (∀ x, v = .hash x → m q = none ∧ ¬ m.Below q) ∧ m.stored q v = m.put k v := by
      unfold insertExact at h2
      rw [if_neg hH] at h2
      cases v with
      | val x => exact ⟨fun x hx => (by cases hx), Except.ok.inj h2⟩
      | hash x =>
        dsimp only at h2
        split at h2
        · cases h2
        · rename_i h3
          split at h2
          · cases h2
          · rename_i h4
            exact ⟨fun _ _ => ⟨by_contra fun h => h3 (.inl h), h4⟩, Except.ok.inj h2⟩
    refine ⟨?_, hH, hst⟩
    rcases h1 with ⟨_, e⟩ | ⟨⟨hn, _⟩, _⟩
    · exact e
    · by_contra hne
      have := congrFun hst.2 k
      simp only [stored, put, if_pos] at this
      rw [if_neg (fun e => hne e.symm), hn] at this
      simp at this
  obtain ⟨rfl, hH, hh, hs⟩ := hq
  refine ⟨fun r x hr hp => hH ⟨r, x, hr, hp⟩, fun r hr hp => ?_, fun hb hv => ?_, fun x hx => ?_, hh⟩
  · by_contra hne
    have := congrFun hs r
    simp only [stored, put] at this
    rw [if_neg hne, if_pos ⟨hr, hp⟩, if_neg hne, hr] at this
    cases this
  · have := congrFun hs q
    unfold stored put at this
    rw [if_pos rfl, if_pos ⟨hv, hb⟩, if_pos rfl] at this
    cases this
  · by_contra hn
    simp only [not_or, not_not] at hn
    rcases h1 with ⟨h1, _⟩ | ⟨⟨_, h3, h4, h5⟩, h6, h7, h8⟩
    · exact h1 ⟨hn.1, hn.2.1, hn.2.2.1, hn.2.2.2⟩
    · rcases h8 with h8 | h8
      · exact h8 hn.1
      · exact hn.2.2.1 h8

/-- C14, for which keys and values `insert` works: on a canonical trie it returns, and the contents are
the old ones with the new entry, exactly if `InsertOK` holds. -/
theorem C14_iff (h : Live K M P kec s) (hi : s.hs[i]? = some t) (hc : t.Canonical) (k : Key)
    (hk : k.length ≤ 127) (v : ValOrHash) :
    (∃ t' st, t.insert P (ofList k) v s.state = .ok (t', st) ∧
      ∀ q, t'.contents q = if q = k then some v else t.contents q) ↔ t.contents.InsertOK k v := by
  obtain ⟨q, h1, h2, _⟩ := C14_exact h hi hc k hk v
  constructor
  · rintro ⟨t', st, e, h3⟩
    refine insertOK_of_exact ((h1 q).2 rfl) ?_
    rw [← h2, e]
    exact congrArg Except.ok (funext h3)
  · intro hok
    obtain ⟨g1, g2⟩ := hok.exact
    rw [← (h1 k).1 g1, g2] at h2
    cases e : t.insert P (ofList k) v s.state with
    | error x => rw [e] at h2; cases h2
    | ok r =>
      rw [e] at h2
      exact ⟨r.1, r.2, rfl, fun q => congrFun (Except.ok.inj h2) q⟩

example (K : Kind) (P : Profile) : (∃ t' st, (caseT K P 0).insert P (ofList [1, 6]) (.val [6]) (caseS K P).state =
      .ok (t', st) ∧ ∀ q, t'.contents q = if q = [1, 6] then some (.val [6]) else (caseT K P 0).contents q) ↔
    (caseT K P 0).contents.InsertOK [1, 6] (.val [6]) :=
  C14_iff (caseLive K P) (caseGet K P (by decide)) (caseCanonical K P _ (by decide))
    _ (by decide) _

example (K : Kind) (P : Profile) : (caseT K P 0).contents.InsertOK [1, 6] (.val [6]) :=
  (caseLists₀ K P).insertOK_of (by decide)

/-! ## C15 -/

/-- C15, what `delete` does for every key on a canonical trie: it acts on exactly one key `q`; it then
panics or returns and removes what `deleteExact` says; and the result is canonical exactly if nothing was
found or the deletion is `DeleteClean`. -/
theorem C15_exact (h : Live K M P kec s) (hi : s.hs[i]? = some t) (hc : t.Canonical)
    (hsh : t.contents.Short) (k : Key) (hk : k.length ≤ 127) :
    ∃ q, (∀ r, t.contents.Lands k r ↔ r = q) ∧
      (t.delete P (ofList k) s.state).map (fun r => (r.1.1.contents, r.1.2)) = t.contents.deleteExact q ∧
      ∀ t' x st, t.delete P (ofList k) s.state = .ok ((t', x), st) →
        (t'.Canonical ↔ (x ≠ none → t.contents.DeleteClean q)) := by
  have hc := plain_of_canonical t hc
  have hp := h.delete_short hi hk (hc.bound hsh)
  obtain ⟨q, h1, h2⟩ := delete_exact (l := t.plain) k hc
  refine ⟨q, fun r => ⟨fun hr => hr.unique h1, fun e => e ▸ h1⟩, ?_, fun t' x st e => ?_⟩
  · rw [Trie.contents, ← h2, ← hp]
    cases t.delete P (ofList k) s.state <;> rfl
  · rw [e] at hp
    rw [canonical_iff]
    exact delete_clean hc h1 hp.symm

example (K : Kind) (P : Profile) : ∃ q, (∀ r, (caseT K P 0).contents.Lands [1, 2] r ↔ r = q) ∧
    ((caseT K P 0).delete P (ofList [1, 2]) (caseS K P).state).map (fun r => (r.1.1.contents, r.1.2)) =
      (caseT K P 0).contents.deleteExact q ∧
    ∀ t' x st, (caseT K P 0).delete P (ofList [1, 2]) (caseS K P).state = .ok ((t', x), st) →
      (t'.Canonical ↔ (x ≠ none → (caseT K P 0).contents.DeleteClean q)) :=
  C15_exact (caseLive K P) (caseGet K P (by decide)) (caseCanonical K P _ (by decide))
    (caseShort K P) _ (by decide)

theorem deleteRight_lands {m : KMap} {k : Key} (h : DeleteRight m k) : Lands m k k := by
  refine .inl ⟨fun ⟨h1, h2, _, h4⟩ => ?_, rfl⟩
  rcases h.absent h1 with h5 | h5
  · exact h5 h2
  · exact h4 h5

theorem deleteRight_exact {m : KMap} {k : Key} (h : DeleteRight m k) :
    deleteExact m k = .ok (m.erase k, m.find k) := by
  have hH : ¬ m.HashOn k := fun ⟨q, x, h1, h2⟩ => h.noHash q x h1 h2
  unfold deleteExact
  rw [if_neg hH]
  by_cases hb : m.BranchAt k
  · rw [if_pos hb]
    have hk : m k ≠ none := by
      intro hn
      rcases h.absent hn with h1 | h1
      · exact h1 hb.1
      · exact hb.2.elim (fun h => h hn) fun h => h h1
    obtain ⟨v, hv⟩ := Option.ne_none_iff_exists'.1 hk
    cases v with
    | hash x => exact absurd ⟨k, x, hv, List.prefix_rfl⟩ hH
    | val x => simp [find, hv]
  · rw [if_neg hb]
    cases hf : m.find k with
    | none =>
      have hn : m k = none := by
        by_contra hk
        obtain ⟨v, hv⟩ := Option.ne_none_iff_exists'.1 hk
        cases v with
        | hash x => exact hH ⟨k, x, hv, List.prefix_rfl⟩
        | val x => simp [find, hv] at hf
      dsimp only
      congr 1
      refine Prod.ext (funext fun q => ?_) rfl
      simp only [erase]
      split
      · rename_i e; rw [e, hn]
      · rfl
    | some x =>
      have hk : m k ≠ none := by
        intro hn; simp [find, hn] at hf
      dsimp only
      rw [if_neg]
      · congr 1
        refine Prod.ext (funext fun q => ?_) rfl
        simp only [erase]
        by_cases hq : q = k
        · rw [if_pos (.inl hq), if_pos hq]
        · rw [if_neg hq]
          split
          · rename_i h1
            rcases h1 with h1 | ⟨d, ⟨r, h2, _, h3⟩, h4⟩
            · exact absurd h1 hq
            · by_contra hm
              obtain ⟨e, f, s, t, g1, g2, g3, g4, g5⟩ := h.parent hk q d r h2 (fun h => hm h.symm) h3
              exact g1 (h4 e f s t g4 g5 g2 g3)
          · rfl
      · rintro ⟨q, d, ⟨r, h1, h2, h3⟩, h4⟩
        rcases h2 with h2 | ⟨e, f, s, t, h5, h6, h7⟩
        · obtain ⟨e, f, s, t, g1, g2, g3, g4, g5⟩ := h.parent hk q d r h1 h2 h3
          exact g2 (h4 e s g4)
        · exact h5 ((h4 e s h6).trans (h4 f t h7).symm)

theorem deleteRight_of_exact {m : KMap} {k q : Key} (h1 : Lands m k q)
    (h2 : deleteExact m q = .ok (m.erase k, m.find k)) : DeleteRight m k := by
  have hH : ¬ m.HashOn q := fun hH => by
    unfold deleteExact at h2
    rw [if_pos hH] at h2
    cases h2
  unfold deleteExact at h2
  rw [if_neg hH] at h2
  have hq : q = k := by
    rcases h1 with ⟨_, e⟩ | ⟨⟨hn, hb, hf, hL⟩, h3, h4, h5⟩
    · exact e
    · exfalso
      have hB : m.BranchAt q := by
        by_cases hqk : q = k
        · subst hqk; exact ⟨hb, .inr hL⟩
        · refine ⟨?_, ?_⟩
          · rcases h5 with h5 | ⟨d, e, r, s, _, h6, _⟩
            · by_contra hnb
              obtain ⟨d, r, hr⟩ := hb
              obtain ⟨v, hv⟩ := Option.ne_none_iff_exists'.1 h5
              have hall : ∀ s, m s ≠ none → k <+: s → s = q := by
                intro s hs hks
                obtain ⟨u, rfl⟩ := h4 s hs hks
                cases u with
                | nil => simp
                | cons d u => exact absurd ⟨d, u, hs⟩ hnb
              obtain ⟨u, rfl⟩ := h3
              cases v with
              | hash x => exact hH ⟨_, x, hv, List.prefix_rfl⟩
              | val x =>
                exact hL ⟨u, x, hv, fun s hs => List.append_cancel_left (hall _ hs (List.prefix_append _ _))⟩
            · exact ⟨d, r, h6⟩
          · rcases h5 with h5 | ⟨d, e, r, s, hde, h6, h7⟩
            · exact .inl h5
            · refine .inr fun ⟨u, x, h8, h9⟩ => ?_
              have := (h9 _ h6).trans (h9 _ h7).symm
              simp at this
              exact hde this.1
      rw [if_pos hB] at h2
      have := congrArg Prod.snd (Except.ok.inj h2)
      simp [find, hn] at this
  subst hq
  refine ⟨fun r x hr hp => hH ⟨r, x, hr, hp⟩, fun hn => ?_, fun hk p d r e hp hl => ?_⟩
  · by_contra hc
    simp only [not_or, not_not] at hc
    rw [if_pos ⟨hc.1, .inr hc.2⟩] at h2
    have := congrArg Prod.snd (Except.ok.inj h2)
    simp [find, hn] at this
  · have hpk : p ≠ q := by rintro rfl; have := congrArg List.length e; simp at this
    have hB : ¬ m.BranchAt q := by
      rintro ⟨⟨f, s, hs⟩, _⟩
      have : m (p ++ d :: (r ++ f :: s)) ≠ none := by
        have e' : p ++ d :: (r ++ f :: s) = q ++ f :: s := by rw [e]; simp
        rw [e']; exact hs
      have := congrArg List.length (hl _ this)
      simp at this
    rw [if_neg hB] at h2
    cases hf : m.find q with
    | none =>
      exfalso
      obtain ⟨v, hv⟩ := Option.ne_none_iff_exists'.1 hk
      cases v with
      | hash x => exact hH ⟨q, x, hv, List.prefix_rfl⟩
      | val x => simp [find, hv] at hf
    | some x =>
      rw [hf] at h2
      dsimp only at h2
      split at h2
      · cases h2
      · by_contra hno
        have h3 := congrFun (congrArg Prod.fst (Except.ok.inj h2)) p
        dsimp only at h3
        have hone : m.OneOther p d := by
          intro a b s u g1 g2 g3 g4
          by_contra hab
          exact hno ⟨a, b, s, u, hab, g3, g4, g1, g2⟩
        rw [if_pos (.inr ⟨d, ⟨r, e, .inl hp, hl⟩, hone⟩)] at h3
        simp only [erase, if_neg hpk] at h3
        exact hp h3.symm

theorem deleteOK_iff {m : KMap} {k : Key} : DeleteOK m k ↔ DeleteRight m k ∧ DeleteClean m k := by
  constructor
  · intro h
    refine ⟨⟨h.noHash, h.absent, h.parent⟩, fun h1 h2 => ?_⟩
    exact (h.branch h1).resolve_left fun h3 => h3 h2
  · rintro ⟨h1, h2⟩
    refine ⟨h1.noHash, h1.absent, fun h3 => ?_, h1.parent⟩
    by_cases hb : m.Below k
    · exact .inr (h2 h3 hb)
    · exact .inl hb

/-- C15, for which keys `delete` works: on a canonical trie it returns the stored value and removes
exactly the given key if and only if `DeleteRight` holds. -/
theorem C15_iff (h : Live K M P kec s) (hi : s.hs[i]? = some t) (hc : t.Canonical)
    (hsh : t.contents.Short) (k : Key) (hk : k.length ≤ 127) :
    (∃ t' st, t.delete P (ofList k) s.state = .ok ((t', t.contents.find k), st) ∧
      ∀ q, t'.contents q = if q = k then none else t.contents q) ↔ DeleteRight t.contents k := by
  obtain ⟨q, h1, h2, _⟩ := C15_exact h hi hc hsh k hk
  constructor
  · rintro ⟨t', st, e, h3⟩
    refine deleteRight_of_exact ((h1 q).2 rfl) ?_
    rw [← h2, e]
    exact congrArg Except.ok (Prod.ext (funext h3) rfl)
  · intro hok
    rw [← (h1 k).1 (deleteRight_lands hok), deleteRight_exact hok] at h2
    cases e : t.delete P (ofList k) s.state with
    | error x => rw [e] at h2; cases h2
    | ok r =>
      obtain ⟨⟨t', x⟩, st⟩ := r
      rw [e] at h2
      have := Prod.mk.inj (Except.ok.inj h2)
      refine ⟨t', st, ?_, fun q => congrFun this.1 q⟩
      rw [← this.2]

example (K : Kind) (P : Profile) : (∃ t' st, (caseT K P 0).delete P (ofList [1, 2]) (caseS K P).state =
      .ok ((t', (caseT K P 0).contents.find [1, 2]), st) ∧
      ∀ q, t'.contents q = if q = [1, 2] then none else (caseT K P 0).contents q) ↔
    DeleteRight (caseT K P 0).contents [1, 2] :=
  C15_iff (caseLive K P) (caseGet K P (by decide)) (caseCanonical K P _ (by decide))
    (caseShort K P) _ (by decide)

/-- C15, for which keys `delete` works and leaves a canonical trie: exactly those of
`DeleteOK`. -/
theorem C15_iff_canonical (h : Live K M P kec s) (hi : s.hs[i]? = some t) (hc : t.Canonical)
    (hsh : t.contents.Short) (k : Key) (hk : k.length ≤ 127) :
    (∃ t' st, t.delete P (ofList k) s.state = .ok ((t', t.contents.find k), st) ∧
      (∀ q, t'.contents q = if q = k then none else t.contents q) ∧ t'.Canonical) ↔
    t.contents.DeleteOK k := by
  rw [deleteOK_iff]
  obtain ⟨q, h1, h2, h3⟩ := C15_exact h hi hc hsh k hk
  constructor
  · rintro ⟨t', st, e, h4, h5⟩
    have hr := (C15_iff h hi hc hsh k hk).1 ⟨t', st, e, h4⟩
    have hq := (h1 k).1 (deleteRight_lands hr)
    subst hq
    refine ⟨hr, fun hn => (h3 t' _ st e).1 h5 ?_ hn⟩
    obtain ⟨v, hv⟩ := Option.ne_none_iff_exists'.1 hn
    cases v with
    | hash x => exact absurd List.prefix_rfl (hr.noHash k x hv)
    | val x => simp [find, hv]
  · rintro ⟨hr, hcl⟩
    obtain ⟨t', st, e, h4⟩ := (C15_iff h hi hc hsh k hk).2 hr
    have hq := (h1 k).1 (deleteRight_lands hr)
    subst hq
    exact ⟨t', st, e, h4, (h3 t' _ st e).2 fun _ => hcl⟩

/-! ## Examples -/

/-- Contents `0x1234` and `0x1235`. -/
def exRun : KMap := fun k =>
  if k = [1, 2, 3, 4] then some (.val [7]) else if k = [1, 2, 3, 5] then some (.val [8]) else none

theorem exRun_some {q : Key} (h : exRun q ≠ none) : q = [1, 2, 3, 4] ∨ q = [1, 2, 3, 5] := by
  by_contra hn
  simp only [not_or] at hn
  exact h (by simp [exRun, hn])

/-- A call with key `0x12` acts on `0x123`. -/
example : exRun.Lands [1, 2] [1, 2, 3] := by
  refine .inr ⟨⟨by decide, ⟨3, [4], by decide⟩, ?_, ?_⟩, by decide, ?_, .inr ⟨4, 5, [], [], by decide, by decide,
    by decide⟩⟩
  · rintro ⟨d, e, r, s, hde, h1, h2⟩
    have h1 : d = 3 := by rcases exRun_some h1 with h | h <;> simp at h <;> exact h.1
    have h2 : e = 3 := by rcases exRun_some h2 with h | h <;> simp at h <;> exact h.1
    exact hde (h1.trans h2.symm)
  · rintro ⟨r, x, _, h⟩
    have := (h [3, 4] (by decide)).trans (h [3, 5] (by decide)).symm
    revert this; decide
  · intro r hr _
    rcases exRun_some hr with rfl | rfl <;> decide

/-- Inserting there is `InsertClean`, so such a call is `Tame`, although it is not supported. -/
example (x : Bytes) : exRun.InsertClean [1, 2, 3] (.val x) := by
  refine ⟨fun q h => ?_, fun _ _ => ⟨4, 5, [], [], by decide, by decide, by decide⟩⟩
  rcases exRun_some (q := q) (by rw [h]; simp) with rfl | rfl <;> revert h <;> decide

/-- Deleting `0x1234` is right and leaves a canonical trie. -/
example : exRun.DeleteOK [1, 2, 3, 4] where
  noHash q x h := by
    rcases exRun_some (q := q) (by rw [h]; simp) with rfl | rfl <;> simp [exRun] at h
  absent h := by simp [exRun] at h
  branch _ := .inl fun ⟨d, r, h⟩ => by rcases exRun_some h with h | h <;> simp at h
  parent _ q d r e hq _ := by
    rcases exRun_some hq with rfl | rfl <;> simp at e

/-- Deleting `0x12` is not: it acts on `0x123` and returns `Some([])`. -/
example : ∀ K : Kind, ∀ P : Profile,
    K.obs P kec0 [.new, .insert 0 [1, 2, 3, 4] (.val [7]), .insert 0 [1, 2, 3, 5] (.val [8]),
      .delete 0 [1, 2], .items 0] =
      .ok [.unit, .unit, .unit, .val (some []),
        .items (packEntries [([1, 2, 3, 4], .val [7]), ([1, 2, 3, 5], .val [8])])] := by
  intro K ⟨P⟩; cases K <;> cases P <;> decide +kernel

/-- Deleting `0x1` above `0x12` is `DeleteRight` but not `DeleteClean`: the trie that is left has the
right contents but differs from a trie with just these contents. -/
example : ∀ K : Kind, ∀ P : Profile,
    K.obs P kec0 [.new, .insert 0 [1] (.val [7]), .insert 0 [1, 2] (.val [8]), .delete 0 [1], .items 0,
      .new, .insert 1 [1, 2] (.val [8]), .eq 0 1] =
      .ok [.unit, .unit, .unit, .val (some [7]), .items (packEntries [([1, 2], .val [8])]), .unit, .unit,
        .bool false] := by
  intro K ⟨P⟩; cases K <;> cases P <;> decide +kernel

/-! ## C17 -/

/-- C17, for which keys it holds: inserting an absent key and deleting it again, on a canonical trie,
returns the value and leaves an equal trie with the same root hash exactly if the key is `Undoable`.  The
value does not matter. -/
theorem C17_iff [M.Safe] (h : Live K M P kec s) (hi : s.hs[i]? = some t) (hc : t.Canonical)
    (hsh : t.contents.Short) (k : Key) (hk' : k.length ≤ 64) (hf : t.contents k = none) (v : Bytes) :
    (∃ t₁ st₁ t₂ st₂, t.insert P (ofList k) (.val v) s.state = .ok (t₁, st₁) ∧
      t₁.delete P (ofList k) st₁ = .ok ((t₂, some v), st₂) ∧ t₂.beq t = true ∧
      (t₂.rootHash P kec st₂).map (·.1) = (t.rootHash P kec s.state).map (·.1)) ↔
    t.contents.Undoable k := by
  have hc := plain_of_canonical t hc
  have hb := hc.bound hsh
  have hk : k.length ≤ 127 := hk'.trans (by decide)
  rw [Trie.contents, ← undo_iff (v := v) hc hf]
  have hp := h.insert hi hk (.val v)
  have step1 : ∀ t₁ st₁, t.insert P (ofList k) (.val v) s.state = .ok (t₁, st₁) →
      Live K M P kec ⟨st₁, s.hs.set i t₁⟩ := fun t₁ st₁ e =>
    .step (c := .insert i k (.val v)) (o := .unit) h hk (by cases K <;> cases M <;> trivial) (by
      simp only [Sys.exec, exec_on hi, e]; rfl)
  have step2 : ∀ t₁ st₁ t₂ o st₂, t.insert P (ofList k) (.val v) s.state = .ok (t₁, st₁) →
      t₁.delete P (ofList k) st₁ = .ok ((t₂, o), st₂) →
      Live K M P kec ⟨st₂, (s.hs.set i t₁).set i t₂⟩ := fun t₁ st₁ t₂ o st₂ e e' =>
    .step (s := ⟨st₁, s.hs.set i t₁⟩) (c := .delete i k) (o := .val o) (step1 _ _ e) hk
      (by cases K <;> cases M <;> trivial) (by
      simp only [Sys.exec, exec_on (s := ⟨st₁, s.hs.set i t₁⟩) (Sys.set_get hi t₁), e']; rfl)
  have hdel : ∀ t₁ st₁, t.insert P (ofList k) (.val v) s.state = .ok (t₁, st₁) →
      (t₁.delete P (ofList k) st₁).map (fun r => (r.1.1.plain, r.1.2)) = t₁.plain.delete k :=
    fun t₁ st₁ e => (step1 _ _ e).delete_short (s := ⟨st₁, s.hs.set i t₁⟩) (Sys.set_get hi t₁) hk (by
      rw [e] at hp
      exact LNode.insert_bound hb hk' hp.symm)
  constructor
  · rintro ⟨t₁, st₁, t₂, st₂, e1, e2, e3, _⟩
    have hp2 := hdel _ _ e1
    have g2 := step2 _ _ _ _ _ e1 e2
    rw [e1] at hp
    rw [e2] at hp2
    rw [Trie.beq_iff_plain (g2.wfKeys (List.mem_of_getElem? (Sys.set_get (s := ⟨st₁, s.hs.set i t₁⟩)
      (Sys.set_get hi t₁) t₂))) (h.wfKeys (List.mem_of_getElem? hi))] at e3
    refine ⟨t₁.plain, hp.symm, hp2.symm.trans ?_⟩
    simp only [Except.map, e3]
  · rintro ⟨l1, e1, e2⟩
    rw [e1] at hp
    cases hins : t.insert P (ofList k) (.val v) s.state with
    | error e => rw [hins] at hp; cases hp
    | ok r =>
      obtain ⟨t₁, st₁⟩ := r
      rw [hins] at hp
      cases hp
      have hp2 := hdel _ _ hins
      rw [e2] at hp2
      cases hd : t₁.delete P (ofList k) st₁ with
      | error e => rw [hd] at hp2; cases hp2
      | ok r =>
        obtain ⟨⟨t₂, o⟩, st₂⟩ := r
        rw [hd] at hp2
        obtain ⟨h1, h2⟩ := Prod.mk.inj (Except.ok.inj hp2)
        dsimp only at h1 h2
        subst h2
        have g2 := step2 _ _ _ _ _ hins hd
        have hi2 : (⟨st₂, (s.hs.set i t₁).set i t₂⟩ : Sys K.Ann K.State).hs[i]? = some t₂ :=
          Sys.set_get (s := ⟨st₁, s.hs.set i t₁⟩) (Sys.set_get hi t₁) t₂
        refine ⟨t₁, st₁, t₂, st₂, rfl, hd, ?_, ?_⟩
        · rw [Trie.beq_iff_plain (g2.wfKeys (List.mem_of_getElem? hi2))
            (h.wfKeys (List.mem_of_getElem? hi)), h1]
        · have a1 := g2.hash hi2
          have a2 := h.hash hi
          dsimp only at a1
          rw [a1, a2, h1]

/-- A key that ends inside a run of nibbles is stored elsewhere, but deleted there, too. -/
example : ∀ K : Kind, ∀ P : Profile,
    K.obs P kec0 [.fromIter [([1, 2, 3, 4], .val [7]), ([1, 2, 3, 5], .val [8])], .clone 0,
      .insert 0 [1, 2] (.val [9]), .delete 0 [1, 2], .eq 0 1] =
      .ok [.unit, .unit, .unit, .val (some [9]), .bool true] := by
  intro K ⟨P⟩; cases K <;> cases P <;> decide +kernel

/-- An empty value at a fork. -/
example : ∀ K : Kind, ∀ P : Profile,
    K.obs P kec0 [.fromIter [([1, 2, 3, 4], .val [7]), ([1, 2, 3, 5], .val [8])], .clone 0,
      .insert 0 [1, 2, 3] (.val []), .delete 0 [1, 2, 3], .eq 0 1] =
      .ok [.unit, .unit, .unit, .val (some []), .bool true] := by
  intro K ⟨P⟩; cases K <;> cases P <;> decide +kernel

/-- A value with one entry below it keeps that entry only in another shape. -/
example : ∀ K : Kind, ∀ P : Profile,
    K.obs P kec0 [.fromIter [([1, 2], .val [7]), ([1, 2, 3], .val [8])], .clone 0,
      .insert 0 [1, 2, 4] (.val [9]), .delete 0 [1, 2, 4], .eq 0 1] =
      .ok [.unit, .unit, .unit, .val (some [9]), .bool false] := by
  intro K ⟨P⟩; cases K <;> cases P <;> decide +kernel

end EthTrie
