import Verif.Conc.Main
import Verif.Conc.Sched
import Verif.Props.Hashing

/-!
# Property C48: calls of several threads behave as if they were made one after the other

`Conc.From K M P kec s n x`: `x` is a state of a program with `n` threads that start in state `s`, share
tries of type `K` and interleave the accesses to cache cells in any way; `x.log` lists the calls that
have ended.  `Conc.Reached K M P kec n x`: the same, where there are no tries at the start.
-/

namespace EthTrie

open Nibbles Spec

section
variable {K : Kind} {M : Mode} {P : Profile} {kec : Bytes → H256} {n : Nat} {x : Conc K.Ann K.State}
  {s : Sys K.Ann K.State}

/-- C48: all calls that have ended have returned what they return in the sequential program that makes
them in the order in which they ended, and the tries of the handles are the same as after this
program.  The order is the one in which the effects become visible: a call that began after another
had ended comes later in the log (`C48_order`). -/
theorem C48_linearizable [M.Safe] (hs : Live K M P kec s) (h : x.From K M P kec s n) :
    ∃ s', s.run P kec (x.log.map (·.1)) = .ok (s', x.log.map (·.2)) ∧ s'.plains = x.sys.plains := by
  obtain ⟨⟨w, Z, mine, hc⟩, hl, _⟩ := h.inv hs.inv
  have h1 := LiveInv.run (M := M) (P := P) hs.inv
    (x.log.map (·.1)) (fun c hc => (hl c hc).1) (fun c hc => (hl c hc).2)
  rw [hc.log] at h1
  have hp : x.sys.plains = Z.map (·.2) := by
    rw [Sys.plains, hc.hs, List.map_map]
    exact List.map_congr_left fun z hz => (hc.ok z hz).rep.plain
  revert h1
  generalize s.run P kec (x.log.map (·.1)) = r
  rcases r with e | ⟨s', os⟩
  · intro h1; cases h1
  · intro h1
    simp only [Except.map, Except.ok.injEq, Prod.mk.injEq] at h1
    exact ⟨s', by rw [h1.2], h1.1.trans hp.symm⟩

/-- C48: if all threads are outside of calls, the program can go on in any other way: every theorem
about live states applies.  What is called then returns what it returns in the sequential program. -/
theorem C48_after [M.Safe] (hs : Live K M P kec s) (h : x.From K M P kec s n)
    (hi : ∀ t ∈ x.threads, t = none) :
    Live K M P kec x.sys ∧ ∀ cs : List Cmd, (∀ c ∈ cs, c.Short) → (∀ c ∈ cs, permitted K M c) →
      (s.run P kec (x.log.map (·.1) ++ cs)).map (fun r => (r.1.plains, r.2)) =
        (x.sys.run P kec cs).map fun r => (r.1.plains, x.log.map (·.2) ++ r.2) := by
  have hl : Live K M P kec x.sys := .threads hs ‹_› (.inl rfl) h hi
  refine ⟨hl, fun cs h1 h2 => ?_⟩
  obtain ⟨s', h3, h4⟩ := C48_linearizable hs h
  have hp := (h.inv hs.inv).2.1
  have hs' : Live K M P kec s' := hs.run _ (fun c hc => (hp c hc).1) (fun c hc => (hp c hc).2) h3
  rw [Sys.run_append, h3, R_bind_ok]
  have e1 := hs'.inv.run (P := P) cs h1 h2
  have e2 := hl.inv.run (P := P) cs h1 h2
  rw [h4, ← e2] at e1
  revert e1
  generalize s'.run P kec cs = r1
  generalize x.sys.run P kec cs = r2
  rcases r1 with e | ⟨a, b⟩ <;> rcases r2 with e' | ⟨a', b'⟩ <;> simp +contextual [Except.map]

/-- C48: a call panics only if it panics in the sequential program. -/
theorem C48_panics [M.Safe] (hs : Live K M P kec s) (h : x.From K M P kec s n) {j : Nat} {c : Cmd}
    {e : Panic} (hj : x.Runs j c (.panic e)) : s.run P kec (x.log.map (·.1) ++ [c]) = .error e := by
  obtain ⟨⟨w, Z, mine, hc⟩, hl, hr⟩ := h.inv hs.inv
  have h1 := LiveInv.run (M := M) (P := P) hs.inv
    (x.log.map (·.1) ++ [c]) (fun d hd => by
      rcases List.mem_append.1 hd with hd | hd
      · exact (hl d hd).1
      · cases List.mem_singleton.1 hd
        exact (hr j c _ hj).1) (fun d hd => by
      rcases List.mem_append.1 hd with hd | hd
      · exact (hl d hd).2
      · cases List.mem_singleton.1 hd
        exact (hr j c _ hj).2)
  have he : plainReply P kec (Z.map (·.2)) c = .error e := (hc.run hj).2
  rw [plainRun_snoc c hc.log, plainExec_eq, he] at h1
  revert h1
  generalize s.run P kec (x.log.map (·.1) ++ [c]) = r
  rcases r with e | ⟨s, os⟩
  · intro h1; cases h1; rfl
  · intro h1; cases h1

/-- C48, no deadlock: a thread inside a call can always make a step, whatever the others do, unless
the call has panicked, and then it panics in the sequential program. -/
theorem C48_progress [M.Safe] (hs : Live K M P kec s) (h : x.From K M P kec s n) {j : Nat} {c : Cmd}
    {p : Prog K.Ann (Reply K.Ann)} (hj : x.Runs j c p) :
    (∃ y, x.go1 j = some y ∧ Conc.Inner x y ∧ ∀ k, k ≠ j → y.threads[k]? = x.threads[k]?) ∨
    ∃ e, p = .panic e ∧ s.run P kec (x.log.map (·.1) ++ [c]) = .error e := by
  have hset : ∀ v, ∀ k, k ≠ j → (x.threads.set j v)[k]? = x.threads[k]? :=
    fun v k hk => List.getElem?_set_ne (Ne.symm hk)
  have hgo : ∀ y, x.go1 j = some y → (∀ k, k ≠ j → y.threads[k]? = x.threads[k]?) →
      ∃ y, x.go1 j = some y ∧ Conc.Inner x y ∧ ∀ k, k ≠ j → y.threads[k]? = x.threads[k]? :=
    fun y hy h => ⟨y, hy, Conc.go1_sound hy, h⟩
  cases p with
  | panic e => exact .inr ⟨e, rfl, C48_panics hs h hj⟩
  | _ =>
    refine .inl (hgo _ (by
      unfold Conc.Runs at hj
      unfold Conc.go1
      rw [hj]) (hset _))

/-- C48, termination: the threads cannot go on making steps inside the calls they are in for ever,
however they are scheduled. -/
theorem C48_terminates (f : Nat → Conc K.Ann K.State) : ¬ ∀ m, Conc.Inner (f m) (f (m + 1)) := by
  intro hf
  have key : ∀ y : Conc K.Ann K.State, Acc (fun y x => Conc.Inner x y) y → ∀ m, f m ≠ y := by
    intro y hy
    induction hy with
    | intro y _ ih =>
      rintro m rfl
      exact ih _ (hf m) (m + 1) rfl
  exact key _ (Conc.inner_acc (f 0)) 0 rfl

/-- C48, no starvation inside a call: in an infinite execution in which thread `j` stays in its call,
the thread makes only finitely many steps; other threads may make new calls for ever. -/
theorem C48_waitfree {A : Cmd → Prop} (f : Nat → Conc K.Ann K.State)
    (hf : ∀ m, Conc.Step P kec A (f m) (f (m + 1))) (j : Nat)
    (hj : ∀ m, ∃ c p, (f m).Runs j c p) :
    ∃ m c p, ∀ m', m ≤ m' → (f m').Runs j c p := by
  have hstep : ∀ {m c p}, (f m).Runs j c p →
      (f (m + 1)).Runs j c p ∨ ∃ q, Prog.Next q p ∧ (f (m + 1)).Runs j c q := by
    intro m c p hp
    have hs := hf m
    obtain ⟨c', p', hp'⟩ := hj (m + 1)
    revert hs hp hp'
    generalize f m = x
    generalize f (m + 1) = y
    intro hp hs hp'
    have hlt : j < x.threads.length := (List.getElem?_eq_some_iff.1 hp).1
    cases hs with
    | call k d hk hA hu hb =>
      refine .inl ((List.getElem?_set_ne fun e => ?_).trans hp)
      subst e
      rw [hp] at hk
      cases hk
    | inner h =>
      cases h with
      | alloc k d q hk =>
        by_cases e : k = j
        · subst e
          cases hk.symm.trans hp
          exact .inr ⟨_, .alloc q _, List.getElem?_set_self hlt⟩
        · exact .inl ((List.getElem?_set_ne e).trans hp)
      | read k d a q hk =>
        by_cases e : k = j
        · subst e
          cases hk.symm.trans hp
          exact .inr ⟨_, .read a q _, List.getElem?_set_self hlt⟩
        · exact .inl ((List.getElem?_set_ne e).trans hp)
      | write k d a v q hk =>
        by_cases e : k = j
        · subst e
          cases hk.symm.trans hp
          exact .inr ⟨_, .write a v q, List.getElem?_set_self hlt⟩
        · exact .inl ((List.getElem?_set_ne e).trans hp)
      | finish k d r hk =>
        by_cases e : k = j
        · subst e
          have := (List.getElem?_set_self hlt).symm.trans hp'
          cases this
        · exact .inl ((List.getElem?_set_ne e).trans hp)
      | unwind k d r hk =>
        by_cases e : k = j
        · subst e
          have := (List.getElem?_set_self hlt).symm.trans hp'
          cases this
        · exact .inl ((List.getElem?_set_ne e).trans hp)
  obtain ⟨c, p, hp⟩ := hj 0
  suffices ∀ (p : Prog K.Ann (Reply K.Ann)) m, (f m).Runs j c p →
      ∃ m c p, ∀ m', m ≤ m' → (f m').Runs j c p from this p 0 hp
  intro p
  induction p.next_acc with
  | intro p _ ih =>
    intro m hp
    by_cases hall : ∀ m', m ≤ m' → (f m').Runs j c p
    · exact ⟨m, c, p, hall⟩
    · obtain ⟨m', q, h1, h2⟩ : ∃ m' q, Prog.Next q p ∧ (f m').Runs j c q := by
        by_contra hno
        apply hall
        intro m' hm
        induction m', hm using Nat.le_induction with
        | base => exact hp
        | succ m' _ ih' =>
          rcases hstep ih' with h1 | ⟨q, h1, h2⟩
          · exact h1
          · exact (hno ⟨_, q, h1, h2⟩).elim
      exact ih q h1 m' h2

/-- C48: the log only grows. -/
theorem C48_order {A : Cmd → Prop} {α S : Type} [TrieKind α S] {x y : Conc α S}
    (h : Conc.Steps P kec A x y) : ∃ l, y.log = x.log ++ l := by
  induction h with
  | refl => exact ⟨[], by simp⟩
  | snoc _ h ih =>
    obtain ⟨l, hl⟩ := ih
    cases h with
    | call j c h hA hu hb => exact ⟨l, hl⟩
    | inner h =>
      cases h with
      | finish j c r hj => exact ⟨l ++ [(c, r.obs)], by simp [hl]⟩
      | alloc j c k hj => exact ⟨l, hl⟩
      | read j c a k hj => exact ⟨l, hl⟩
      | write j c a v k hj => exact ⟨l, hl⟩
      | unwind j c e hj => exact ⟨l, hl⟩

end

/-! ## Two threads at work on the same trie -/

/-- The permitted actions of an example. -/
def Act.ok (K : Kind) (M : Mode) : Act → Prop
  | .call _ c => c.Short ∧ permitted K M c
  | .go _ _ => True

theorem Conc.sched_reached {K : Kind} {M : Mode} {P : Profile} {kec : Bytes → H256} {n : Nat}
    {as : List Act} {x : Conc K.Ann K.State} (h : (K.conc n).sched P kec as = some x)
    (hA : ∀ a ∈ as, a.ok K M) : x.Reached K M P kec n :=
  sched_sound h fun j c hm => hA (.call j c) hm

/-- A trie is made; then thread 0 makes a subset for no keys and is interrupted after it has read the
empty cell of the root; thread 1 makes a subset for a key, hashes the trie, makes a subset for no keys
of the same trie, compares it to itself and changes a trie it has made before; then thread 0 goes on. -/
def mixedActs : List Act :=
  [.call 0 (.fromIter [([1, 2], .val (List.replicate 40 7)), ([2, 2], .val (List.replicate 50 8))]),
    .go 0 100, .call 0 .new, .go 0 100,
    .call 0 (.subset 0 []), .go 0 2,
    .call 1 (.subset 0 [[1, 2]]), .go 1 3,
    .go 0 2, .go 1 100,
    .call 1 (.hash 0), .go 1 100,
    .call 1 (.subset 0 []), .go 1 100,
    .call 1 (.eq 0 0), .go 1 100,
    .call 2 (.insert 1 [1] (.val [5])), .go 2 100,
    .go 0 100,
    .call 1 (.eq 3 4), .go 1 100]

theorem mixedActs_ok (K : Kind) : ∀ a ∈ mixedActs, a.ok K .noClone := by
  cases K <;> simp [mixedActs, Act.ok, permitted, Cmd.Short, or_imp, forall_and]

/-- The calls of the example and what they return, in the order in which they end; thread 0 ends its
call for the first subset after all others. -/
def mixedLog : List (Cmd × Obs) :=
  [(.fromIter [([1, 2], .val (List.replicate 40 7)), ([2, 2], .val (List.replicate 50 8))], .unit),
    (.new, .unit),
    (.subset 0 [[1, 2]], .unit), (.hash 0, .root (Vector.replicate 32 83)), (.subset 0 [], .unit),
    (.eq 0 0, .bool true), (.insert 1 [1] (.val [5]), .unit), (.subset 0 [], .unit),
    (.eq 3 4, .bool true)]

theorem mixed_log : ∀ P : Profile,
    ((Kind.hashed.conc 3).sched P kec0 mixedActs).map (·.log) = some mixedLog ∧
    ((Kind.standard.conc 3).sched P kec0 mixedActs).map (·.log) = some mixedLog := by
  intro ⟨P⟩; cases P <;> decide +kernel

/-- The state after this execution meets the premise of C48. -/
example (P : Profile) : ∃ x : Conc CellId Heap, Conc.Reached .hashed .noClone P kec0 3 x ∧
    x.log = mixedLog := by
  obtain ⟨x, h1, h2⟩ := Option.map_eq_some_iff.1 (mixed_log P).1
  exact ⟨x, Conc.sched_reached h1 (mixedActs_ok _), h2⟩

/-- What C48 says about it, by computation. -/
example : ∀ P : Profile,
    Kind.hashed.obs P kec0 (mixedLog.map (·.1)) = .ok (mixedLog.map (·.2)) := by
  intro ⟨P⟩; cases P <;> decide +kernel

/-- Calls before the threads start: a trie is made, a call panics and the panic is caught, and a second
trie is made. -/
def soloState (P : Profile) : Option (Sys CellId Heap) :=
  match Kind.hashed.start.exec P kec0 (.fromIter [([1, 2], .val (List.replicate 40 7)),
    ([3], .hash (Vector.replicate 32 9))]) with
  | .error _ => none
  | .ok (s, _) =>
    match s.exec P kec0 (.insert 0 [3, 1] (.val [5])) with
    | .ok _ => none
    | .error _ =>
      match (s.afterPanic P kec0 (.insert 0 [3, 1] (.val [5]))).exec P kec0 .new with
      | .error _ => none
      | .ok (s, _) => some s

theorem soloState_live {P : Profile} {s : Sys CellId Heap} (h : soloState P = some s) :
    Live .hashed .noClone P kec0 s := by
  unfold soloState at h
  split at h
  · cases h
  rename_i s1 _ h1
  split at h
  · cases h
  rename_i e h2
  split at h
  · cases h
  rename_i s2 _ h3
  cases h
  refine .step (.caught (.step .start ?_ ?_ h1) ?_ ?_ ?_ h2) ?_ ?_ h3 <;>
    simp [Cmd.Short, permitted, Sys.Catchable]

/-- Two threads work on the tries that were there before. -/
def laterActs : List Act :=
  [.call 0 (.subset 0 []), .go 0 2, .call 1 (.insert 1 [4] (.val [6])), .go 1 100,
    .call 1 (.hash 0), .go 1 3, .go 0 100, .go 1 100, .call 0 (.eq 0 1), .go 0 100]

/-- This is a case of `C48_after`. -/
example (P : Profile) : ∃ (s : Sys CellId Heap) (x : Conc CellId Heap),
    Live .hashed .noClone P kec0 s ∧ x.From .hashed .noClone P kec0 s 2 ∧
    (∀ t ∈ x.threads, t = none) ∧ s.hs.length = 2 ∧ x.sys.hs.length = 3 ∧
    x.log.map (·.1) = [.insert 1 [4] (.val [6]), .subset 0 [], .hash 0, .eq 0 1] := by
  have h : ((soloState P).bind fun s => ((s.conc 2).sched P kec0 laterActs).map fun x =>
      (x.threads.all Option.isNone, s.hs.length, x.sys.hs.length, x.log.map (·.1))) =
      some (true, 2, 3, [.insert 1 [4] (.val [6]), .subset 0 [], .hash 0, .eq 0 1]) := by
    revert P; intro ⟨P⟩; cases P <;> decide +kernel
  obtain ⟨s, h1, h2⟩ := Option.bind_eq_some_iff.1 h
  obtain ⟨x, h3, h4⟩ := Option.map_eq_some_iff.1 h2
  simp only [Prod.mk.injEq, List.all_eq_true, Option.isNone_iff_eq_none] at h4
  refine ⟨s, x, soloState_live h1, Conc.sched_sound h3 fun j c hm => ?_, h4.1, h4.2.1, h4.2.2.1,
    h4.2.2.2⟩
  revert j c hm
  simp [laterActs, permitted, Cmd.Short, or_imp, forall_and]

/-- A state in which two threads are in the middle of calls on the same trie. -/
example : ∀ P : Profile, ((Kind.hashed.conc 3).sched P kec0 (mixedActs.take 9)).map (fun x =>
    (x.log.length, x.threads.map fun t => t.map (·.1))) =
    some (2, [some (.subset 0 []), some (.subset 0 [[1, 2]]), none]) := by
  intro ⟨P⟩; cases P <;> decide +kernel

/-- The call in which a thread has panicked. -/
def Conc.panicked {α S : Type} (x : Conc α S) (j : Nat) : Option (Cmd × Panic) :=
  match x.threads[j]? with
  | some (some (c, .panic e)) => some (c, e)
  | _ => none

/-- A call that panics: something is inserted below a hash node.  The trie is as it was, and the threads
go on. -/
example : ∀ P : Profile, ((Kind.hashed.conc 2).sched P kec0
    [.call 0 (.fromIter [([1], .hash (Vector.replicate 32 9))]), .go 0 100,
      .call 1 (.insert 0 [1, 2] (.val [5])), .go 1 100, .call 0 (.items 0), .call 1 (.insert 0 [2] (.val [5])),
      .go 0 100, .call 1 (.insert 0 [2] (.val [5])), .go 1 100]).map (fun x => x.log) = none ∧
    ((Kind.hashed.conc 2).sched P kec0
    [.call 0 (.fromIter [([1], .hash (Vector.replicate 32 9))]), .go 0 100,
      .call 1 (.insert 0 [1, 2] (.val [5])), .go 1 100, .call 0 (.items 0), .go 0 100,
      .call 1 (.insert 0 [2] (.val [5])), .go 1 100]).map (fun x => x.log) = some
      [(.fromIter [([1], .hash (Vector.replicate 32 9))], .unit),
        (.items 0, .items [(⟨1, 1⟩, .hash (Vector.replicate 32 9))]), (.insert 0 [2] (.val [5]), .unit)] := by
  intro ⟨P⟩; cases P <;> decide +kernel

/-- `extend` panics in the same way; the thread makes no more steps. -/
example : ∀ P : Profile, ((Kind.hashed.conc 2).sched P kec0
    [.call 0 (.fromIter [([1], .hash (Vector.replicate 32 9))]), .go 0 100,
      .call 1 (.extend 0 [([1, 2], .val [5])]), .go 1 100]).map (fun x => (x.panicked 1, x.log.map (·.1))) =
    some (some (.extend 0 [([1, 2], .val [5])], .hashInsert),
      [.fromIter [([1], .hash (Vector.replicate 32 9))]]) := by
  intro ⟨P⟩; cases P <;> decide +kernel

/-! ## C48 fails if tries are cloned and subsets for no keys are made -/

/-- Handles 0 and 1 share the cell of the root and differ.  Both threads make a subset for no keys; they
read the empty cell before one of them has filled it, so that each gets the hash of its own trie. -/
def racyActs : List Act :=
  [.call 0 (.fromIter [([1, 2], .val (List.replicate 40 7))]), .go 0 100, .call 0 (.clone 0), .go 0 100,
    .call 0 (.insert 1 [2, 2] (.val (List.replicate 50 8))), .go 0 100,
    .call 0 (.subset 0 []), .call 1 (.subset 1 []), .go 0 1, .go 1 100, .go 0 100,
    .call 1 (.eq 2 3), .go 1 100]

/-- The calls before the two threads go to work. -/
def racyStart : List Cmd :=
  [.fromIter [([1, 2], .val (List.replicate 40 7))], .clone 0,
    .insert 1 [2, 2] (.val (List.replicate 50 8))]

/-- C48 fails for `HashedPartialTrie` if a trie may be cloned and subsets for no keys may be made: two
subsets that are different if they are made at the same time are equal if they are made one after the
other, in either order. -/
theorem C48_false (P : Profile) : ∃ x : Conc CellId Heap, Conc.Reached .hashed .any P kec0 2 x ∧
    x.log = List.zip (racyStart ++ [Cmd.subset 1 [], .subset 0 [], .eq 2 3])
      [.unit, .unit, .unit, .unit, .unit, .bool false] ∧
    Kind.hashed.obs P kec0 (racyStart ++ [.subset 1 [], .subset 0 [], .eq 2 3]) =
      .ok [.unit, .unit, .unit, .unit, .unit, .bool true] ∧
    Kind.hashed.obs P kec0 (racyStart ++ [.subset 0 [], .subset 1 [], .eq 2 3]) =
      .ok [.unit, .unit, .unit, .unit, .unit, .bool true] := by
  have h : ((Kind.hashed.conc 2).sched P kec0 racyActs).map (·.log) =
      some (List.zip (racyStart ++ [Cmd.subset 1 [], .subset 0 [], .eq 2 3])
        [.unit, .unit, .unit, .unit, .unit, .bool false]) := by
    revert P; intro ⟨P⟩; cases P <;> decide +kernel
  obtain ⟨x, h1, h2⟩ := Option.map_eq_some_iff.1 h
  refine ⟨x, Conc.sched_reached h1 ?_, h2, ?_⟩
  · simp [racyActs, Act.ok, permitted, Cmd.Short, or_imp, forall_and]
  · revert P; intro ⟨P⟩; cases P <;> intros <;> decide +kernel

end EthTrie
