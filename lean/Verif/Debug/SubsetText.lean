import Verif.Debug.Errors
import Verif.Debug.TrieTextLemmas
import Verif.Subset.Sim
import Verif.Spec.View

/-!
# Marking with texts does what marking does
-/

namespace EthTrie

open Spec KMap LNode Nibbles

/-- The text in an error: the hash node at which marking stopped. -/
def hashText (cached : Bool) (o : Option H256) (x : H256) : Text :=
  t!"TrackedNode { node: Hash, info: TrackedNodeInfo { underlying_node: " ++
    wrapText cached o (t!"Hash(" ++ debugH256 x ++ t!")") ++ t!", touched: true } }"

theorem extRest_cases {P : Profile} {n k k' : Key} (h : LTracked.extRest P n k = .ok (some k')) :
    k = n ++ k' ∨ k' = [] := by
  unfold LTracked.extRest at h
  split at h
  · split at h
    · rename_i hp
      obtain ⟨r, rfl⟩ := hp
      simp at h
      exact .inl (by rw [h])
    · simp at h
  · split at h
    · simp at h
    · split at h <;> simp at h
      exact .inr h

section
variable {kec : Bytes → H256} {α S : Type} [K : TrieKind α S] [L : KindLaws kec α S] {P : Profile}
  {cached : Bool}

theorem debug_hash (a : α) (x : H256) (s : S) : (Tracked.debug cached P (.hash (.hash a x) true)).run s =
    .ok (hashText cached (K.cacheGet a s) x, s) := by
  rw [Tracked.debug, Tracked.debugInfo]
  show ((Trie.debug cached P (.hash a x)) >>= _).run s = _
  rw [Prog.bind_run, debug_run (.hash a x) trivial]
  simp only [hashText, Trie.caches, Trie.text, if_true]
  simp only [List.append_assoc, List.cons_append, List.nil_append]
  rfl

/-- What marking with texts gives, if marking gives `m`. -/
def TextRel (cached : Bool) (u : Trie α) (ks : List Key) (s : S) (x : R (Except (SubsetError × Text) (Tracked α) × S)) :
    R (Except SubsetError (Tracked α)) → Prop
  | .error e => x = .error e
  | .ok (.ok t') => x = .ok (.ok t', s)
  | .ok (.error e) => ∃ k ∈ ks, ∃ q r a y, k = q ++ r ∧ r ≠ [] ∧ u.NodeAt q (.hash a y) ∧ e = .unexpectedKey (ofList r) ∧
      x = .ok (.error (e, hashText cached (K.cacheGet a s) y), s)

theorem markText_run {w : L.W} (s : S) : ∀ (l : LTracked) (t : Tracked α) (k : Key), RepT kec w t l →
    l.node.Bound 127 → k.length ≤ 127 →
    TextRel cached t.u [k] s ((markText cached P t (ofList k)).run s) (mark P t (ofList k)) := by
  intro l
  induction l with
  | empty b => intro t k ht _ _; cases ht; exact rfl
  | leaf n v b => intro t k ht _ _; cases ht; exact rfl
  | hash h b =>
    intro t k ht _ hk
    cases ht with
    | hash a _ _ =>
    cases k with
    | nil => exact rfl
    | cons d k =>
      simp only [mark, markText, isEmpty_ofList, List.isEmpty_cons]
      refine ⟨d :: k, by simp, [], d :: k, a, h, rfl, by simp, .here _, rfl, ?_⟩
      rw [Prog.bind_run, debug_hash]
      rfl
  | branch lcs v b ih =>
    intro t k ht hb hk
    cases ht with
    | branch a cs _ _ _ ucs hu h ho =>
    cases k with
    | nil => exact rfl
    | cons d k =>
      simp only [mark, markText, isEmpty_ofList, List.isEmpty_cons, Bool.false_eq_true, if_false]
      rw [popNextFront_ok P (by omega), R_bind_ok]
      simp only [idx16_val, R_bind_ok]
      have hd := ih d (cs d) k (h d) ((hb.2 d).mono (by omega)) (by simp at hk; omega)
      rw [show ∀ (f : _ → Prog α (Except (SubsetError × Text) (Tracked α))),
        ((Prog.lift (.ok (d.val, ofList k)) : Prog α _) >>= f) = f (d.val, ofList k) from fun _ => rfl]
      simp only [idx16_val]
      rw [show ∀ (f : _ → Prog α (Except (SubsetError × Text) (Tracked α))),
        ((Prog.lift (.ok d) : Prog α _) >>= f) = f d from fun _ => rfl]
      rw [Prog.bind_run]
      revert hd
      generalize (markText cached P (cs d) (ofList k)).run s = x
      generalize mark P (cs d) (ofList k) = y
      intro hd
      rcases y with e | (e | y)
      · rw [show x = _ from hd]; exact rfl
      · obtain ⟨_, hk', q, r, a', y, hkq, hr, hn, rfl, rfl⟩ := hd
        rw [List.mem_singleton.1 hk'] at hkq
        exact ⟨d :: k, by simp, d :: q, r, a', y, by rw [hkq]; rfl, hr, .branch _ _ _ _ _ _ (hu d ▸ hn), rfl, rfl⟩
      · rw [show x = _ from hd]; exact rfl
  | ext n lc b ih =>
    intro t k ht hb hk
    cases ht with
    | ext a _ c _ _ hn h ho =>
    have hn' : n.length ≤ 127 := hb.1
    simp only [mark, markText, getNibblesExpected, R_bind_ok]
    show TextRel cached _ _ s ((Prog.lift ((ofList k).popNibblesFront P (ofList n).count) >>= _).run s) _
    rcases extRest_eq (P := P) hn' hk with ⟨e, hp, hr⟩ | ⟨r, rest, hp, hi, hr⟩ | ⟨r, k', hp, hi, hr⟩
    · rw [hp]; exact rfl
    · rw [hp]
      simp only [R_bind_ok, hi]
      show TextRel cached _ _ s ((Prog.lift (r.identicalUpToSmallest P (ofList n)) >>= _).run s) _
      rw [hi]
      exact rfl
    · rw [hp]
      simp only [R_bind_ok, hi]
      show TextRel cached _ _ s ((Prog.lift (r.identicalUpToSmallest P (ofList n)) >>= _).run s) _
      rw [hi]
      have hk' := LTracked.extRest_length hr
      have hd := ih c k' h (hb.2.mono (by omega)) (by omega)
      show TextRel cached _ _ s ((markText cached P c (ofList k') >>= _).run s) _
      rw [Prog.bind_run]
      revert hd
      generalize (markText cached P c (ofList k')).run s = x
      generalize mark P c (ofList k') = y
      intro hd
      rcases y with e | (e | y)
      · rw [show x = _ from hd]; exact rfl
      · obtain ⟨_, hk', q, r, a', y, hkq, hr', hn1, rfl, rfl⟩ := hd
        rw [List.mem_singleton.1 hk'] at hkq
        rcases extRest_cases hr with e | e
        · refine ⟨k, by simp, n ++ q, r, a', y, by rw [e, hkq, List.append_assoc], hr', ?_, rfl, rfl⟩
          have := Trie.NodeAt.ext a (ofList n) c.u q _ hn1
          rwa [toList_ofList (by omega)] at this
        · rw [e] at hkq
          simp at hkq
          exact absurd hkq.2 hr'
      · rw [show x = _ from hd]; exact rfl

theorem markAllText_run {w : L.W} (s : S) : ∀ (ks : List Key) (l : LTracked) (t : Tracked α), RepT kec w t l →
    l.node.Bound 127 → (∀ k ∈ ks, k.length ≤ 127) →
    TextRel cached t.u ks s ((markAllText cached P t (ks.map ofList)).run s) (markAll P t (ks.map ofList)) := by
  intro ks
  induction ks with
  | nil => intro l t ht _ _; exact rfl
  | cons k ks ih =>
    intro l t ht hb hk
    simp only [List.map_cons, markAll, markAllText]
    have hd := markText_run (cached := cached) (P := P) s l t k ht hb (hk k List.mem_cons_self)
    have hs := mark_sim (P := P) l t k ht hb (hk k List.mem_cons_self)
    have hnode := LTracked.mark_node P l k
    rw [Prog.bind_run]
    revert hd hs hnode
    generalize (markText cached P t (ofList k)).run s = x
    generalize hm : mark P t (ofList k) = y
    generalize l.mark P k = z
    intro hd hs hnode
    rcases y with e | (e | y)
    · rw [show x = _ from hd]; exact rfl
    · obtain ⟨_, hk', q, r, a', y, hkq, hr, hn, rfl, rfl⟩ := hd
      rw [List.mem_singleton.1 hk'] at hkq
      exact ⟨k, List.mem_cons_self, q, r, a', y, hkq, hr, hn, rfl, rfl⟩
    · rw [show x = _ from hd]
      rcases z with e | (e | z)
      · exact hs.elim
      · exact hs.elim
      · have hu : y.u = t.u := mark_sim.mark_u hm
        have := ih z y hs (by rw [hnode z rfl]; exact hb) fun k hk' => hk k (List.mem_cons_of_mem _ hk')
        rw [hu] at this
        revert this
        simp only [R_bind_ok]
        rcases markAll P y (ks.map ofList) with e | (e | m)
        · exact fun h => h
        · rintro ⟨k, h1, h2⟩
          exact ⟨k, List.mem_cons_of_mem _ h1, h2⟩
        · exact fun h => h

theorem markAll_u : ∀ (ks : List Nibbles) {t t' : Tracked α}, markAll P t ks = .ok (.ok t') → t'.u = t.u
  | [], t, t', h => by simp [markAll] at h; rw [h]
  | k :: ks, t, t', h => by
    simp only [markAll, R_bind_eq_ok] at h
    obtain ⟨r, h1, h⟩ := h
    cases r with
    | error e => simp at h
    | ok c => exact (markAll_u ks h).trans (mark_sim.mark_u h1)

theorem u_resetTracked (t : Tracked α) : (resetTracked t).u = t.u := by cases t <;> rfl

/-- Several subsets with texts: without them, the outcome is the same; an error is the one of the hash node at
which marking stopped, with the cell it has then. -/
theorem subsetsText_run {w : L.W} : ∀ (kss : List (List Key)) (s : S) (l : LTracked) (t : Tracked α),
    RepT kec w t l → l.node.Bound 127 → (∀ ks ∈ kss, ∀ k ∈ ks, k.length ≤ 127) →
    ((createTrieSubsetsTextFrom cached P kec t (kss.map fun ks => ks.map ofList)).run s).map
        (fun r => (r.1.mapError (·.1), r.2)) =
      (createTrieSubsetsFrom P kec t (kss.map fun ks => ks.map ofList)).run s ∧
    ∀ e trie st, (createTrieSubsetsTextFrom cached P kec t (kss.map fun ks => ks.map ofList)).run s =
        .ok (.error (e, trie), st) →
      ∃ ks ∈ kss, ∃ k ∈ ks, ∃ q r a y, k = q ++ r ∧ r ≠ [] ∧ t.u.NodeAt q (.hash a y) ∧
        e = .unexpectedKey (ofList r) ∧ trie = hashText cached (K.cacheGet a st) y := by
  intro kss
  induction kss with
  | nil => intro s l t _ _ _; exact ⟨rfl, fun e trie st h => by cases h⟩
  | cons ks kss ih =>
    intro s l t ht hb hk
    simp only [List.map_cons, createTrieSubsetsFrom, createTrieSubsetsTextFrom]
    have hks := hk ks List.mem_cons_self
    have hd := markAllText_run (cached := cached) (P := P) s ks l t ht hb hks
    have hs := markAll_sim (P := P) ks l t ht hb hks
    have hnode := LTracked.markAll_node P (t := l) (ks := ks)
    rw [Prog.bind_run, Prog.bind_run]
    revert hd hs hnode
    generalize (markAllText cached P t (ks.map ofList)).run s = x
    generalize hm : markAll P t (ks.map ofList) = y
    generalize l.markAll P ks = z
    intro hd hs hnode
    rcases y with e | (e | y)
    · rw [show x = _ from hd]; exact ⟨rfl, fun e trie st h => by cases h⟩
    · obtain ⟨k, hk', q, r, a', y, hkq, hr, hn, rfl, rfl⟩ := hd
      refine ⟨rfl, fun e trie st h => ?_⟩
      cases h
      exact ⟨ks, List.mem_cons_self, k, hk', q, r, a', y, hkq, hr, hn, rfl, rfl⟩
    · rw [show x = _ from hd]
      rcases z with e | (e | z)
      · exact hs.elim
      · exact hs.elim
      have hz : RepT kec w y z := hs
      simp only [Prog.lift_run_ok, Prog.bind_run]
      rcases (createSubset P kec y).run s with e | ⟨r, s'⟩
      · exact ⟨rfl, fun e trie st h => by cases h⟩
      have h1 := ih s' z.reset (resetTracked y) hz.reset (by rw [LTracked.reset_node, hnode z rfl]; exact hb)
        fun ks' hk' => hk ks' (List.mem_cons_of_mem _ hk')
      rw [u_resetTracked, markAll_u _ hm] at h1
      revert h1
      simp only [Prog.bind_run]
      generalize (createTrieSubsetsFrom P kec (resetTracked y) (kss.map fun ks => ks.map ofList)).run s' = b
      generalize (createTrieSubsetsTextFrom cached P kec (resetTracked y) (kss.map fun ks => ks.map ofList)).run s' = a
      rintro ⟨rfl, h2⟩
      rcases a with e | ⟨e | rs, st⟩
      · exact ⟨rfl, fun e trie st h => by cases h⟩
      · refine ⟨rfl, fun e' trie st' h => ?_⟩
        cases h
        obtain ⟨ks', h3, h4⟩ := h2 _ _ _ rfl
        exact ⟨ks', List.mem_cons_of_mem _ h3, h4⟩
      · exact ⟨rfl, fun e trie st h => by cases h⟩

end

end EthTrie
