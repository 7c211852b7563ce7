import Verif.Conc.Lemmas
import Verif.Props.Subsets

/-!
# Property C25: concurrent hashing
-/

namespace EthTrie

open Spec KMap LNode Nibbles

variable {K : Kind} {M : Mode} {P : Profile} {kec : Bytes → H256} {s : Sys K.Ann K.State}

/-- A trie that a thread may hash: a handle or one of its sub-tries. -/
def Sys.Has {α S : Type} (s : Sys α S) (u : Trie α) : Prop := ∃ t ∈ s.hs, ∃ q, t.NodeAt q u

theorem Live.hashers (h : Live K M P kec s) {us : List (Trie K.Ann)} (hu : ∀ u ∈ us, s.Has u)
    {n : Nat} {c : Threads K.Ann K.State H256}
    (hc : Threads.Steps n ⟨s.state, us.map (hashProg P kec)⟩ c) :
    ∃ w p Z w', Inv (L := Kind.laws kec K) kec w s p Z ∧
      Inv (L := Kind.laws kec K) kec w' ⟨c.state, s.hs⟩ p Z ∧
      List.Forall₂ (fun q u => ∃ v, Returns (L := Kind.laws kec K) kec q w' v ∧
        (u.rootHash P kec s.state).map (·.1) = .ok v) c.threads us := by
  obtain ⟨w, p, Z, h1, _⟩ := h.inv.ex
  have h3 : ∀ u ∈ us, ∃ v, Returns (L := Kind.laws kec K) kec (hashProg P kec u) w v ∧
      (u.rootHash P kec s.state).map (·.1) = .ok v := by
    intro u hu'
    obtain ⟨t, ht, q, hq⟩ := hu u hu'
    rw [h1.hs, List.mem_map] at ht
    obtain ⟨a, ha, rfl⟩ := ht
    have hok := h1.ok a ha
    obtain ⟨l, g1, g2, _⟩ := NodeAt_rep (L := Kind.laws kec K) hq hok.rep (fun w' hle => by
      unfold hashNow
      rw [(Kind.laws kec K).le_cell hle hok.slot])
    refine ⟨_, returns_hash (L := Kind.laws kec K) g1 g2, ?_⟩
    obtain ⟨x, w', k1, _, rfl⟩ := run_rootHash (P := P) (L := Kind.laws kec K) g1
    rw [h1.state, k1]
    rfl
  obtain ⟨vs, h4, h4'⟩ : ∃ vs, List.Forall₂ (fun p v => Returns (L := Kind.laws kec K) kec p w v)
      (us.map (hashProg P kec)) vs ∧
      List.Forall₂ (fun u v => (u.rootHash P kec s.state).map (·.1) = .ok v) us vs := by
    clear hc hu
    induction us with
    | nil => exact ⟨[], .nil, .nil⟩
    | cons u us ih =>
      obtain ⟨v, g1, g2⟩ := h3 u (by simp)
      obtain ⟨vs, g3, g4⟩ := ih fun u hu => h3 u (by simp [hu])
      exact ⟨v :: vs, .cons g1 g3, .cons g2 g4⟩
  obtain ⟨w', h5, h6, h7⟩ := steps_returns (L := Kind.laws kec K) hc h1.state h4
  refine ⟨w, p, Z, w', h1, ?_, ?_⟩
  · rw [h6]
    exact h1.step_le h5
  · clear hc h4 hu h3
    generalize c.threads = qs at h7 ⊢
    induction h4' generalizing qs with
    | nil => cases h7; exact .nil
    | cons g _ ih =>
      cases h7 with
      | cons g' h7 => exact .cons ⟨_, g', g⟩ (ih _ h7)

/-- C25: threads that hash handles or sub-tries of handles, any number of them and interleaved in any
way, do not panic, and each thread that finishes returns what `hash()` returns if it is called alone
before. -/
theorem C25_correct (h : Live K M P kec s) {us : List (Trie K.Ann)} (hu : ∀ u ∈ us, s.Has u)
    {n : Nat} {c : Threads K.Ann K.State H256}
    (hc : Threads.Steps n ⟨s.state, us.map (hashProg P kec)⟩ c) {j : Nat} {p : Prog K.Ann H256}
    (hj : c.threads[j]? = some p) : (∀ e, p ≠ .panic e) ∧ ∀ x, p = .ret x →
      ∃ u, us[j]? = some u ∧ (u.rootHash P kec s.state).map (·.1) = .ok x := by
  obtain ⟨_, _, _, w, _, _, h1⟩ := h.hashers hu hc
  obtain ⟨u, h2, v, h3, h4⟩ := forall₂_get h1 hj
  refine ⟨?_, ?_⟩
  · rintro e rfl; exact h3
  · rintro x rfl
    refine ⟨u, h2, ?_⟩
    rw [show x = v from h3]
    exact h4

/-- Two threads that hash a trie and its clone. -/
example (K : Kind) (P : Profile) {n : Nat} {c : Threads K.Ann K.State H256}
    (hc : Threads.Steps n ⟨(caseS K P).state, [caseT K P 0, caseT K P 1].map (hashProg P kec0)⟩ c) {j : Nat}
    {p : Prog K.Ann H256} (hj : c.threads[j]? = some p) : (∀ e, p ≠ .panic e) ∧ ∀ x, p = .ret x →
      ∃ u, [caseT K P 0, caseT K P 1][j]? = some u ∧ (u.rootHash P kec0 (caseS K P).state).map (·.1) = .ok x :=
  C25_correct (caseLive K P) (by
    simp only [List.mem_cons, List.not_mem_nil, or_false, forall_eq_or_imp, forall_eq]
    exact ⟨⟨_, caseMem K P (by decide), [], .here _⟩, ⟨_, caseMem K P (by decide), [], .here _⟩⟩) hc hj

/-- C25: in programs without clones or without subsets for no keys this is the hash computed without
caches; for nodes below the root it is so in all programs. -/
theorem C25_right (h : Live K M P kec s) {u : Trie K.Ann} (hu : s.Has u)
    (hM : M.Safe ∨ ∀ t ∈ s.hs, u ≠ t) :
    (u.rootHash P kec s.state).map (·.1) = (u.bare.rootHash P kec ()).map (·.1) := by
  obtain ⟨t, ht, q, hq⟩ := hu
  by_cases e : u = t
  · subst e
    obtain ⟨i, hi⟩ := List.getElem?_of_mem ht
    rcases hM with hM | hM
    · exact C24_partial h hi
    · exact absurd rfl (hM u ht)
  · obtain ⟨w, p, Z, h1, _⟩ := h.inv.ex
    rw [h1.hs, List.mem_map] at ht
    obtain ⟨a, ha, rfl⟩ := ht
    have hok := h1.ok a ha
    obtain ⟨l, g1, g2, g3⟩ := NodeAt_rep (L := Kind.laws kec K) hq hok.rep (fun w' hle => by
      unfold hashNow
      rw [(Kind.laws kec K).le_cell hle hok.slot])
    have g3 := g3.resolve_left e
    obtain ⟨x, w', k1, _, rfl⟩ := run_rootHash (P := P) (L := Kind.laws kec K) g1
    obtain ⟨x', w'', k2, _, rfl⟩ := run_rootHash (P := P) (L := lawsUnit kec) (w := ()) (repN_bare g1)
    unfold hashNow at g3
    rw [h1.state, k1, show Trie.rootHash P kec u.bare () = _ from k2, g3]
    rfl

example (K : Kind) (P : Profile) : ((caseT K P 1).rootHash P kec0 (caseS K P).state).map (·.1) =
    ((caseT K P 1).bare.rootHash P kec0 ()).map (·.1) :=
  C25_right (caseLive K P) ⟨_, caseMem K P (by decide), [], .here _⟩ (.inl inferInstance)

/-- C25: as long as a thread has not finished, it can make a step. -/
theorem C25_progress (h : Live K M P kec s) {us : List (Trie K.Ann)} (hu : ∀ u ∈ us, s.Has u)
    {n : Nat} {c : Threads K.Ann K.State H256}
    (hc : Threads.Steps n ⟨s.state, us.map (hashProg P kec)⟩ c) {j : Nat} {p : Prog K.Ann H256}
    (hj : c.threads[j]? = some p) (hp : ∀ x, p ≠ .ret x) :
    ∃ st p', Threads.Step c ⟨st, c.threads.set j p'⟩ := by
  have h1 := (C25_correct h hu hc hj).1
  obtain ⟨st, ps⟩ := c
  cases p with
  | ret x => exact absurd rfl (hp x)
  | panic e => exact absurd rfl (h1 e)
  | alloc k => exact ⟨_, _, .alloc st ps j k hj⟩
  | read a k => exact ⟨_, _, .read st ps j a k hj⟩
  | write a v k => exact ⟨_, _, .write st ps j a v k hj⟩

/-- C25: every run ends, after at most two steps per node. -/
theorem C25_terminates {us : List (Trie K.Ann)} {st : K.State} {n : Nat}
    {c : Threads K.Ann K.State H256}
    (hc : Threads.Steps n ⟨st, us.map (hashProg P kec)⟩ c) :
    n ≤ (us.map fun u => 2 * u.size).sum := by
  refine steps_within hc ?_
  simp only [List.forall₂_map_left_iff, List.forall₂_map_right_iff, List.forall₂_same]
  exact fun u _ => within_hash u

theorem Inv.run_eq {s' : Sys K.Ann K.State} {w w' p Z Z'}
    (h1 : Inv (L := Kind.laws kec K) kec w s p Z) (h2 : Inv (L := Kind.laws kec K) kec w' s' p Z')
    (cs : List Cmd) (hs : ∀ c ∈ cs, c.Short) :
    (s'.run P kec cs).map (·.2) = (s.run P kec cs).map (·.2) := by
  have g1 := run_refine (L := Kind.laws kec K) (P := P) (K.cells_real kec) cs w s p Z h1 hs
  have g2 := run_refine (L := Kind.laws kec K) (P := P) (K.cells_real kec) cs w' s' p Z' h2 hs
  revert g1 g2
  rcases p.run P K.cells kec cs with e | ⟨p', os⟩
  · intro g1 g2
    rw [show s.run P kec cs = .error e from g1, show s'.run P kec cs = .error e from g2]
  · rintro ⟨s₁, w₁, Z₁, g1, _⟩ ⟨s₂, w₂, Z₂, g2, _⟩
    rw [g1, g2]; rfl

/-- C25: whatever the threads have done to the caches, at any time, is not observable by any program
that runs afterwards. -/
theorem C25_after (h : Live K M P kec s) {us : List (Trie K.Ann)} (hu : ∀ u ∈ us, s.Has u)
    {n : Nat} {c : Threads K.Ann K.State H256}
    (hc : Threads.Steps n ⟨s.state, us.map (hashProg P kec)⟩ c) (cs : List Cmd)
    (hs : ∀ c ∈ cs, c.Short) :
    ((⟨c.state, s.hs⟩ : Sys K.Ann K.State).run P kec cs).map (·.2) = (s.run P kec cs).map (·.2) := by
  obtain ⟨w, p, Z, w', h1, h2, _⟩ := h.hashers hu hc
  exact h1.run_eq h2 cs hs

/-- C25: every run can be continued until all threads have finished. -/
theorem C25_finishes (h : Live K M P kec s) {us : List (Trie K.Ann)} (hu : ∀ u ∈ us, s.Has u)
    {n : Nat} {c : Threads K.Ann K.State H256}
    (hc : Threads.Steps n ⟨s.state, us.map (hashProg P kec)⟩ c) :
    ∃ m c', Threads.Steps m c c' ∧ ∀ p ∈ c'.threads, ∃ x, p = .ret x := by
  by_cases hf : ∀ p ∈ c.threads, ∃ x, p = .ret x
  · exact ⟨0, c, .nil c, hf⟩
  · simp only [not_forall] at hf
    obtain ⟨p, hp, hx⟩ := hf
    obtain ⟨j, hj⟩ := List.getElem?_of_mem hp
    obtain ⟨st, p', hst⟩ := C25_progress h hu hc hj fun x e => hx ⟨x, e⟩
    have hc' := hc.snoc hst
    have := C25_terminates hc'
    obtain ⟨m, c', h1, h2⟩ := C25_finishes h hu hc'
    exact ⟨m + 1, c', .cons hst h1, h2⟩
  termination_by (us.map fun u => 2 * u.size).sum - n
  decreasing_by omega

/-- Run threads in a given order. -/
def Threads.sched {α S β : Type} [K : TrieKind α S] : List Nat → Threads α S β → Threads α S β
  | [], c => c
  | j :: js, c => match c.threads[j]? with
    | some (.alloc k) =>
      sched js ⟨(K.alloc c.state).2, c.threads.set j (k (K.alloc c.state).1)⟩
    | some (.read a k) => sched js ⟨c.state, c.threads.set j (k (K.cacheGet a c.state))⟩
    | some (.write a v k) => sched js ⟨K.cacheSet a v c.state, c.threads.set j k⟩
    | _ => sched js c

theorem Threads.sched_steps {α S β : Type} [K : TrieKind α S] (js : List Nat)
    (c : Threads α S β) : ∃ n, Threads.Steps n c (Threads.sched js c) := by
  induction js generalizing c with
  | nil => exact ⟨0, .nil c⟩
  | cons j js ih =>
    obtain ⟨st, ps⟩ := c
    simp only [Threads.sched]
    rcases hj : ps[j]? with _ | (b | e | k | ⟨a, k⟩ | ⟨a, v, k⟩)
    · exact ih _
    · exact ih _
    · exact ih _
    · obtain ⟨n, h⟩ := ih ⟨(K.alloc st).2, ps.set j (k (K.alloc st).1)⟩
      exact ⟨n + 1, .cons (.alloc st ps j k hj) h⟩
    · obtain ⟨n, h⟩ := ih ⟨st, ps.set j (k (K.cacheGet a st))⟩
      exact ⟨n + 1, .cons (.read st ps j a k hj) h⟩
    · obtain ⟨n, h⟩ := ih ⟨K.cacheSet a v st, ps.set j k⟩
      exact ⟨n + 1, .cons (.write st ps j a v k hj) h⟩

/-- Three threads: two hash a handle, one hashes a handle that shares its sub-tries.  They take
turns until all have finished. -/
example : (Kind.hashed.run .debug kec0 [.fromIter exEntries, .clone 0]).map (fun r =>
    (Threads.sched (List.replicate 150 [0, 1, 2]).flatten
      (⟨r.1.state, ([0, 0, 1].filterMap fun i => r.1.hs[i]?).map (hashProg .debug kec0)⟩ :
        Threads CellId Heap H256)).threads.map fun
      | .ret x => some x
      | _ => none) = .ok (List.replicate 3 (some (Vector.replicate 32 83))) := by
  decide +kernel

end EthTrie
