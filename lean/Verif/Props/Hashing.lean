import Verif.Props.Contents
import Verif.Spec.Effect

/-!
# Properties C21 – C24: root hashes and caches
-/

namespace EthTrie

open Spec KMap LNode Nibbles

variable {K : Kind} {M : Mode} [M.Safe] {P : Profile} {kec : Bytes → H256} {s : Sys K.Ann K.State}
  {i : Nat} {t : Trie K.Ann}

/-! ## C21, C22 -/

/-- C21: the hash of a reached trie is the root of any list of its entries. -/
theorem C21_root (h : Reached K M P kec s) (hi : s.hs[i]? = some t) {J : Entries}
    (hJ : Lists J t.contents) :
    (t.rootHash P kec s.state).map (·.1) = .ok (trieRoot kec J) := by
  rw [h.live.hash hi, rootHash_spec kec (h.canon (List.mem_of_getElem? hi)).1 hJ]

example (K : Kind) (P : Profile) : ((caseT K P 0).rootHash P kec0 (caseS K P).state).map (·.1) =
    .ok (trieRoot kec0 caseXs) :=
  C21_root (caseReached K P) (caseGet K P (by decide)) (caseLists₀ K P)

/-- The subset has hash nodes and the same root. -/
example (K : Kind) (P : Profile) : ((caseT K P 2).rootHash P kec0 (caseS K P).state).map (·.1) =
    .ok (trieRoot kec0 caseYs) :=
  C21_root (caseReached K P) (caseGet K P (by decide)) (caseLists₂ K P)

example : trieRoot kec0 caseXs = Vector.replicate 32 74 ∧ trieRoot kec0 caseYs = Vector.replicate 32 74 ∧
    trieRoot kec0 (([1, 5], .val [13]) :: caseXs) ≠ Vector.replicate 32 74 := by decide +kernel

/-- C21: there always is such a list. -/
theorem C21_exists (h : Reached K M P kec s) (hi : s.hs[i]? = some t) :
    ∃ J, Lists J t.contents ∧ (t.rootHash P kec s.state).map (·.1) = .ok (trieRoot kec J) :=
  ⟨_, items_lists t.plain, C21_root h hi (items_lists t.plain)⟩

example (K : Kind) (P : Profile) : ∃ J, Lists J (caseT K P 1).contents ∧
    ((caseT K P 1).rootHash P kec0 (caseS K P).state).map (·.1) = .ok (trieRoot kec0 J) :=
  C21_exists (caseReached K P) (caseGet K P (by decide))

theorem step_effect {S : Key → Prop} {kec : Bytes → H256} {ms ms' : List KMap} {c : Cmd} {o : Obs}
    (hc : c.Over S) (h : Step kec ms c o ms') : ms' = c.effect ms := by
  cases c with
  | new => exact h.2
  | fromIter xs => exact h.2
  | subset i ks => exact hc.elim
  | subsets i kss => exact hc.elim
  | eq i j =>
    simp only [Step, onMap, Cmd.effect] at h ⊢
    split at h
    · exact h.2
    · split at h
      · exact h.2
      · exact h.2
  | _ =>
    simp only [Step, onMap, Cmd.effect] at h ⊢
    split at h <;> simp_all

theorem steps_effect {S : Key → Prop} {kec : Bytes → H256} {ms ms' : List KMap} {cs : List Cmd}
    {os : List Obs} (h : Steps kec ms cs os ms') (hc : ∀ c ∈ cs, c.Over S) :
    ms' = cs.foldl Cmd.effect ms := by
  induction h with
  | nil => rfl
  | cons h _ ih =>
    rw [ih fun c hc' => hc c (by simp [hc']), step_effect (hc _ (by simp)) h, List.foldl_cons]

/-- C21 for programs with keys of a fixed length (at most 127 nibbles, or 64 if the program deletes
or enumerates), from the start: the hash of a trie at the end of a
program is the root of the entries that are left in it. -/
theorem C21_program (K : Kind) (P : Profile) (kec : Bytes → H256) (n : Nat) (hn : n ≤ 127)
    (cs : List Cmd) (hcs : ∀ c ∈ cs, c.Over fun k => k.length = n)
    (hd : ∀ c ∈ cs, c.Merges → n ≤ 64) {i : Nat} {m : KMap}
    (hi : (effects cs)[i]? = some m) {J : Entries} (hJ : Lists J m) :
    ∃ os, K.obs P kec (cs ++ [.hash i]) = .ok (os ++ [.root (trieRoot kec J)]) := by
  have hov : ∀ c ∈ cs ++ [.hash i], c.Over fun k => k.length = n := by
    intro c hc
    rcases List.mem_append.1 hc with hc | hc
    · exact hcs c hc
    · rw [List.mem_singleton.1 hc]; trivial
  obtain ⟨s, os, h1, h2, h3⟩ := Reached.run (M := .noEmptySubset) cs
    (.start (K := K) (P := P) (kec := kec))
    (over_supportedRun (prefixFree_fixed n) (fun k hk => by omega) cs (fun m h => by cases h) hcs
      (fun c hc hm k hk => by have := hd c hc hm; omega)
      fun _ => over_fixed hn cs (fun m h => by cases h) hcs) fun c hc => over_permitted (hcs c hc)
  have h4 := steps_effect h2 hcs
  have hm : s.contents[i]? = some m := by rw [h4]; exact hi
  simp only [Sys.contents, List.getElem?_map, Option.map_eq_some_iff] at hm
  obtain ⟨t, ht, rfl⟩ := hm
  have h5 := C21_root h3 ht hJ
  refine ⟨os, ?_⟩
  rw [Kind.obs, Kind.run, Sys.run_append, h1]
  simp only [Except.map, R_bind_ok, Sys.run, Sys.exec, exec_on ht]
  revert h5
  cases t.rootHash P kec s.state with
  | error e => intro h; cases h
  | ok r =>
    intro h5
    simp only [Except.map, Except.ok.injEq] at h5
    simp [h5]

/-- Three keys of two nibbles, one of which is overwritten and one of which is deleted. -/
example (K : Kind) (P : Profile) (kec : Bytes → H256) : ∃ os,
    K.obs P kec ([.new, .insert 0 [1, 2] (.val [7]), .insert 0 [1, 3] (.val [8]), .insert 0 [1, 2] (.val [9]),
      .clone 0, .insert 1 [4, 4] (.val [5]), .delete 1 [1, 3]] ++ [.hash 1]) =
    .ok (os ++ [.root (trieRoot kec [([1, 2], .val [9]), ([4, 4], .val [5])])]) := by
  refine C21_program K P kec 2 (by omega) _ ?_ (fun _ _ _ => by omega) rfl
    ⟨by decide, fun k v => ?_⟩
  · simp [Cmd.Over]
  · simp only [KMap.put, KMap.erase, KMap.empty, List.mem_cons, Prod.mk.injEq, List.not_mem_nil, or_false]
    by_cases h1 : k = [1, 2]
    · subst h1; simp [eq_comm]
    · by_cases h2 : k = [4, 4]
      · subst h2; simp [eq_comm]
      · simp only [h1, h2, if_false, false_and, or_self, false_iff]
        split <;> simp_all

/-- C22: the hash depends on the contents only. -/
theorem C22_contents {K₁ K₂ : Kind} {M₁ M₂ : Mode} [M₁.Safe] [M₂.Safe] {P₁ P₂ : Profile}
    {s₁ : Sys K₁.Ann K₁.State} {s₂ : Sys K₂.Ann K₂.State} (h₁ : Reached K₁ M₁ P₁ kec s₁)
    (h₂ : Reached K₂ M₂ P₂ kec s₂) {i₁ i₂ : Nat} {t₁ : Trie K₁.Ann} {t₂ : Trie K₂.Ann}
    (m₁ : s₁.hs[i₁]? = some t₁) (m₂ : s₂.hs[i₂]? = some t₂) (h : t₁.contents = t₂.contents) :
    (t₁.rootHash P₁ kec s₁.state).map (·.1) = (t₂.rootHash P₂ kec s₂.state).map (·.1) :=
  (C16_histories h₁ h₂ m₁ m₂ h).2

/-- The two types, with different build profiles. -/
example (K₁ K₂ : Kind) (P₁ P₂ : Profile) : ((caseT K₁ P₁ 1).rootHash P₁ kec0 (caseS K₁ P₁).state).map (·.1) =
    ((caseT K₂ P₂ 1).rootHash P₂ kec0 (caseS K₂ P₂).state).map (·.1) :=
  C22_contents (caseReached K₁ P₁) (caseReached K₂ P₂) (caseGet K₁ P₁ (by decide)) (caseGet K₂ P₂ (by decide))
    ((caseLists₁ K₁ P₁).ext (caseLists₁ K₂ P₂) (.refl _))

/-! ## C23 -/

/-- A program that leaves a stale hash in a `HashedPartialTrie`: a trie is cloned (the clone shares
the cache cell of the root), the clone is changed, a subset of the original for no keys is made
(which fills the cell), and the clone is hashed. -/
def staleProg : List Cmd :=
  [.new, .insert 0 [1, 2] (.val (List.replicate 40 7)), .clone 0,
    .insert 1 [1, 3] (.val (List.replicate 50 8)), .subset 0 [], .hash 1]

/-- C23 fails: the last call of `staleProg` returns different hashes. -/
theorem C23_false : ∀ (P : Profile) (kec : Bytes → H256), ∃ a b : Bytes, a ≠ b ∧
    Kind.standard.obs P kec staleProg = .ok [.unit, .unit, .unit, .unit, .unit, .root (kec a)] ∧
    Kind.hashed.obs P kec staleProg = .ok [.unit, .unit, .unit, .unit, .unit, .root (kec b)] := by
  intro ⟨P⟩
  refine spelled fun f => ⟨226 :: 17 :: 160 :: (spell (f (248 :: 81 :: 128 :: 128 :: 160 ::
    (spell (f (234 :: 32 :: 168 :: List.replicate 40 7))).toList ++ 160 ::
    (spell (f (244 :: 32 :: 178 :: List.replicate 50 8))).toList ++ List.replicate 13 128))).toList,
    236 :: 130 :: 32 :: 18 :: 168 :: List.replicate 40 7, ?_, ?_, ?_⟩
  · exact fun h => absurd (List.head_eq_of_cons_eq h) (by decide)
  all_goals cases P <;> kernel_rfl

theorem repN_bare_inj {t u : Trie Unit} {l : LNode} (h1 : RepN (L := lawsUnit kec) kec () t l)
    (h2 : RepN (L := lawsUnit kec) kec () u l) : t = u := by
  induction h1 generalizing u with
  | empty a => cases h2; rfl
  | hash a h => cases h2; rfl
  | branch a cs lcs v h ho ih =>
    cases h2 with
    | branch _ cs' _ _ h' =>
      congr
      exact funext fun i => ih i (h' i)
  | ext a k c lc hk h ho ih =>
    cases h2 with
    | ext _ _ c' _ _ h' => rw [ih h']
  | leaf a k v hk => cases h2; rfl

/-- All tries of a program without their caches. -/
def Sys.bares {α S : Type} (s : Sys α S) : List (Trie Unit) := s.hs.map Trie.bare

theorem bares_eq {K₁ K₂ : Kind} {s₁ : Sys K₁.Ann K₁.State} {s₂ : Sys K₂.Ann K₂.State} {w₁ w₂ Z₁ Z₂}
    {p₁ p₂ : PSys} (h₁ : Inv (L := Kind.laws kec K₁) kec w₁ s₁ p₁ Z₁)
    (h₂ : Inv (L := Kind.laws kec K₂) kec w₂ s₂ p₂ Z₂) (h : p₁.hs.map (·.1) = p₂.hs.map (·.1)) :
    s₁.bares = s₂.bares := by
  have key : ∀ {K : Kind} {s : Sys K.Ann K.State} {p : PSys} {w Z},
      Inv (L := Kind.laws kec K) kec w s p Z →
      List.Forall₂ (fun t l => RepN (L := lawsUnit kec) kec () t l) s.bares (p.hs.map (·.1)) := by
    intro K s p w Z h
    rw [Sys.bares, h.hs, h.phs, List.map_map, List.map_map, List.forall₂_map_left_iff,
      List.forall₂_map_right_iff, List.forall₂_same]
    exact fun a ha => repN_bare (h.ok a ha).rep
  have k1 := key h₁
  have k2 := key h₂
  rw [h] at k1
  generalize s₁.bares = b1 at k1 ⊢
  generalize s₂.bares = b2 at k2 ⊢
  generalize p₂.hs.map (·.1) = l at k1 k2
  induction k1 generalizing b2 with
  | nil => cases k2; rfl
  | cons g1 _ ih =>
    cases k2 with
    | cons g2 k2 => rw [repN_bare_inj g1 g2, ih _ k2]

/-- C23 for all programs with keys of at most 127 nibbles that do not clone or do not make subsets
for no keys: the results of all calls, panics included, are the same, and at the end the tries are
the same up to caches.  Missing: other programs, see `C23_false`. -/
theorem C23_partial (P : Profile) (kec : Bytes → H256) {cs : List Cmd} (hc : ∀ c ∈ cs, c.Short)
    (hs : CacheSafe cs) :
    (Kind.standard.run P kec cs).map (fun r => (r.1.bares, r.2)) =
    (Kind.hashed.run P kec cs).map (fun r => (r.1.bares, r.2)) := by
  have h1 := Kind.standard.run_refine P kec cs hc
  have h2 := Kind.hashed.run_refine P kec cs hc
  have h3 : ∀ C, (PSys.start.run P C kec cs).map (fun r => (r.1.hs.map (·.1), r.2)) = _ :=
    fun C => hs.run (P := P) (C := C) (kec := kec)
  have h4 := (h3 Kind.standard.cells).trans (h3 Kind.hashed.cells).symm
  revert h1 h2 h4
  rcases PSys.start.run P Kind.standard.cells kec cs with e | ⟨p₁, os₁⟩ <;>
    rcases PSys.start.run P Kind.hashed.cells kec cs with e' | ⟨p₂, os₂⟩
  · intro h1 h2 h4
    cases h4
    rw [show Kind.standard.run P kec cs = .error e from h1,
      show Kind.hashed.run P kec cs = .error e from h2]
    rfl
  · intro _ _ h4; cases h4
  · intro _ _ h4; cases h4
  · rintro ⟨s₁, w₁, Z₁, h1, i1⟩ ⟨s₂, w₂, Z₂, h2, i2⟩ h4
    simp only [Except.map, Except.ok.injEq, Prod.mk.injEq] at h4
    obtain ⟨h4, rfl⟩ := h4
    rw [h1, h2]
    simp only [Except.map, bares_eq i1 i2 h4]

example (P : Profile) : (Kind.standard.run P kec0 caseProg).map (fun r => (r.1.bares, r.2)) =
    (Kind.hashed.run P kec0 caseProg).map (fun r => (r.1.bares, r.2)) :=
  C23_partial P kec0 (by
    simp only [caseProg, List.forall_mem_cons, Cmd.Short]
    exact ⟨by decide, trivial, trivial, by decide, by decide, nofun⟩) (.inr ⟨by simp [caseProg], by simp [caseProg]⟩)

/-! ## C24 -/

/-- C24 fails: in `staleProg`, the hash of handle 1 is the hash of the contents of handle 0. -/
theorem C24_false : ∀ (P : Profile) (kec : Bytes → H256), ∃ a b : Bytes, a ≠ b ∧
    Kind.standard.obs P kec [.fromIter [([1, 2], .val (List.replicate 40 7)),
        ([1, 3], .val (List.replicate 50 8))], .hash 0] = .ok [.unit, .root (kec a)] ∧
    Kind.hashed.obs P kec staleProg = .ok [.unit, .unit, .unit, .unit, .unit, .root (kec b)] := by
  intro ⟨P⟩
  refine spelled fun f => ⟨226 :: 17 :: 160 :: (spell (f (248 :: 81 :: 128 :: 128 :: 160 ::
    (spell (f (234 :: 32 :: 168 :: List.replicate 40 7))).toList ++ 160 ::
    (spell (f (244 :: 32 :: 178 :: List.replicate 50 8))).toList ++ List.replicate 13 128))).toList,
    236 :: 130 :: 32 :: 18 :: 168 :: List.replicate 40 7, ?_, ?_, ?_⟩
  · exact fun h => absurd (List.head_eq_of_cons_eq h) (by decide)
  all_goals cases P <;> kernel_rfl

omit [M.Safe] in
/-- The hash of a copy without caches. -/
theorem bare_rootHash (h : Live K M P kec s) (hi : s.hs[i]? = some t) :
    (t.bare.rootHash P kec ()).map (·.1) = .ok (t.plain.rootHash kec) := by
  have ht := List.mem_of_getElem? hi
  obtain ⟨w, p, Z, h1, _⟩ := h.inv.ex
  rw [h1.hs, List.mem_map] at ht
  obtain ⟨a, ha, rfl⟩ := ht
  have hr := (h1.ok a ha).rep
  obtain ⟨x, w', g1, _, rfl⟩ := run_rootHash (P := P) (L := lawsUnit kec) (w := ())
    (repN_bare hr)
  rw [hr.plain]
  have g2 : Trie.rootHash P kec a.1.bare () = _ := g1
  rw [g2]; rfl

/-- C24 for programs without clones or without subsets for no keys: `hash()` returns what is computed
from scratch from a copy of the trie without caches.  Missing: other programs. -/
theorem C24_partial (h : Live K M P kec s) (hi : s.hs[i]? = some t) :
    (t.rootHash P kec s.state).map (·.1) = (t.bare.rootHash P kec ()).map (·.1) := by
  rw [h.hash hi, bare_rootHash h hi]

/-- The clone was hashed before it was changed. -/
example (K : Kind) (P : Profile) : ((caseT K P 1).rootHash P kec0 (caseS K P).state).map (·.1) =
    ((caseT K P 1).bare.rootHash P kec0 ()).map (·.1) :=
  C24_partial (caseLive K P) (caseGet K P (by decide))

/-- Cloning, mutating, hashing and subsets for one key. -/
example : CacheSafe [.new, .insert 0 [1, 2] (.val (List.replicate 40 7)), .hash 0, .clone 0,
    .insert 1 [1, 3] (.val (List.replicate 50 8)), .subset 0 [[1, 2]], .hash 1, .hash 0] :=
  .inr ⟨by simp, by simp⟩

end EthTrie
