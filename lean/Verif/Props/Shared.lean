import Verif.Props.LightDelete
import Verif.Props.Linear

/-!
# Property C91: threads that share tries keyed by hashes

C86 to C89 for the threads of C48 (`Verif/Conc/Calls.lean`): the calls, in the order in which they ended,
returned what sorted tables return.
-/

namespace EthTrie

open Spec KMap Nibbles

section
variable {P : Profile} {kec : Bytes → H256} {A B : Cmd → Prop}

theorem Conc.Steps.imp {α S : Type} [TrieKind α S] (hAB : ∀ c, A c → B c) {x y : Conc α S}
    (h : Conc.Steps P kec A x y) : Conc.Steps P kec B x y := by
  induction h with
  | refl => exact .refl _
  | snoc _ h ih =>
    refine .snoc ih ?_
    cases h with
    | call j c h hA hu hb => exact .call _ j c h (hAB c hA) hu hb
    | inner h => exact .inner h

/-- Calls that have ended, and those that threads are in, are of the kind of the program. -/
theorem Conc.Steps.all {K : Kind} {n : Nat} {x : Conc K.Ann K.State} (h : Conc.Steps P kec A (K.conc n) x) :
    (∀ c ∈ x.log.map (·.1), A c) ∧ ∀ j c p, x.Runs j c p → A c := by
  induction h with
  | refl =>
    refine ⟨by simp [Kind.conc], fun j c p h => ?_⟩
    rw [Conc.Runs, Kind.conc, List.getElem?_replicate] at h
    split at h <;> simp at h
  | snoc _ h ih =>
    obtain ⟨hl, hr⟩ := ih
    cases h with
    | call j c hj hA hu hb =>
      refine ⟨hl, fun k d q hk => ?_⟩
      rcases runs_set hk with ⟨_, e⟩ | ⟨_, hk⟩
      · cases e; exact hA
      · exact hr k d q hk
    | inner h =>
      refine ⟨?_, ?_⟩
      · cases h with
        | finish j c r hj =>
          intro d hd
          rw [List.map_append, List.mem_append] at hd
          rcases hd with hd | hd
          · exact hl d hd
          · cases List.mem_singleton.1 hd
            exact hr _ _ _ hj
        | _ => exact hl
      · cases h with
        | alloc j c k hj | read j c a k hj | write j c a v k hj =>
          intro k d q hk
          rcases runs_set hk with ⟨_, e⟩ | ⟨_, hk⟩
          · cases e; exact hr _ _ _ hj
          · exact hr k d q hk
        | finish j c r hj | unwind j c e hj =>
          intro k d q hk
          rcases runs_set hk with ⟨_, e⟩ | ⟨_, hk⟩
          · cases e
          · exact hr k d q hk

end

/-- Calls with hashes as keys; subsets are for at least one key. -/
def Cmd.Hashed (c : Cmd) : Prop := ∃ l : LCall, c = l.cmd ∧ ∀ i, l ≠ .subset i []

section
variable {ι : Type} [DecidableEq ι] {C : Coding ι}

omit [DecidableEq ι] in
theorem KCall.fine {K : Kind} (c : KCall ι) : (c.cmd C).Short ∧ permitted K .noEmptySubset (c.cmd C) := by
  have hs : ∀ a : ι, ((C.key a).toList).length ≤ 127 := by
    intro a
    rw [Coding.key_toList]
    exact (Coding.keys_short _ ⟨a, rfl⟩).trans (by omega)
  refine ⟨?_, over_permitted (c.cmd_over C)⟩
  cases c with
  | fromIter xs | extend i xs =>
    intro x hx
    obtain ⟨y, -, rfl⟩ := List.mem_map.1 hx
    exact hs y.1
  | insert i a v => exact hs a
  | delete i a => exact hs a
  | get i a => exact hs a
  | _ => trivial

omit [DecidableEq ι] in
theorem coded_calls : ∀ {cs : List Cmd}, (∀ c ∈ cs, ∃ k : KCall ι, c = k.cmd C) →
    ∃ ks : List (KCall ι), cs = ks.map (KCall.cmd C)
  | [], _ => ⟨[], rfl⟩
  | c :: cs, h => by
    obtain ⟨k, rfl⟩ := h c List.mem_cons_self
    obtain ⟨ks, rfl⟩ := coded_calls fun c hc => h c (List.mem_cons_of_mem _ hc)
    exact ⟨k :: ks, rfl⟩

/-- If sequential programs return what tables return, then threads do. -/
theorem threads_reference {K : Kind} {P : Profile} {kec : Bytes → H256} {n : Nat} {x : Conc K.Ann K.State}
    (hseq : ∀ ks : List (KCall ι), K.obs P kec (ks.map (KCall.cmd C)) = .ok (KCall.runOn C kec [] ks))
    (h : Conc.Steps P kec (fun c => ∃ k : KCall ι, c = k.cmd C) (K.conc n) x) :
    (∃ ks : List (KCall ι), x.log.map (·.1) = ks.map (KCall.cmd C) ∧
      x.log.map (·.2) = KCall.runOn C kec [] ks) ∧ ∀ j c e, ¬ x.Runs j c (.panic e) := by
  have hr : x.From K .noEmptySubset P kec K.start n := h.imp fun c ⟨k, hk⟩ => hk ▸ k.fine
  obtain ⟨h1, h2⟩ := h.all
  obtain ⟨ks, hks⟩ := coded_calls h1
  obtain ⟨s', h3, -⟩ := C48_linearizable .start hr
  refine ⟨⟨ks, hks, ?_⟩, fun j c e hj => ?_⟩
  · have := hseq ks
    rw [← hks, Kind.obs, Kind.run, h3] at this
    exact Except.ok.inj this
  · obtain ⟨k, rfl⟩ := h2 j c _ hj
    have h4 := C48_panics .start hr hj
    have := hseq (ks ++ [k])
    rw [List.map_append, ← hks, Kind.obs, Kind.run, List.map_singleton, h4] at this
    cases this

end

theorem Cmd.Hashed.fine {K : Kind} : ∀ c : Cmd, c.Hashed → c.Short ∧ permitted K .noEmptySubset c := by
  rintro _ ⟨l, rfl, hl⟩
  cases l with
  | call c => exact c.fine
  | subset i hs =>
    refine ⟨?_, ?_⟩
    · intro k hk
      obtain ⟨a, -, rfl⟩ := List.mem_map.1 hk
      have : (fromH256BE a).toList = hashKeys.nibs a := Coding.key_toList (C := hashKeys) a
      rw [this, hashKeys_length]
      omega
    · have : hs ≠ [] := fun e => hl i (e ▸ rfl)
      cases K <;> simp [permitted, LCall.cmd, this]

/-! ## C91 -/

/-- C91: the calls of any number of threads on shared tries with hashes as keys, in the order in which they
ended, returned what sorted tables return, and no thread panics, whatever the threads do and however they are
scheduled. -/
theorem C91_reference {K : Kind} {P : Profile} {kec : Bytes → H256} {n : Nat} {x : Conc K.Ann K.State}
    (h : Conc.Steps P kec (fun c => ∃ k : KCall H256, c = k.cmd hashKeys) (K.conc n) x) :
    (∃ ks : List (KCall H256), x.log.map (·.1) = ks.map (KCall.cmd hashKeys) ∧
      x.log.map (·.2) = KCall.runOn hashKeys kec [] ks) ∧ ∀ j c e, ¬ x.Runs j c (.panic e) :=
  threads_reference (C86_reference K P kec) h

/-- C91: the same with indexes as keys, in builds without overflow checks (C87). -/
theorem C91_index {K : Kind} {P : Profile} (hP : P.overflowChecks = false) {kec : Bytes → H256} {n : Nat}
    {x : Conc K.Ann K.State}
    (h : Conc.Steps P kec (fun c => ∃ k : KCall UInt64, c = k.cmd indexKeys) (K.conc n) x) :
    (∃ ks : List (KCall UInt64), x.log.map (·.1) = ks.map (KCall.cmd indexKeys) ∧
      x.log.map (·.2) = KCall.runOn indexKeys kec [] ks) ∧ ∀ j c e, ¬ x.Runs j c (.panic e) :=
  threads_reference (C87_release K P hP kec) h

/-- C91 with subsets: if the calls, in the order in which they ended, use only the keys that the subsets
were made for (C88, deletions as in C89), they returned what sorted tables return, where a subset is a copy
of the whole table. -/
theorem C91_subsets {K : Kind} {P : Profile} {kec : Bytes → H256} {n : Nat} {x : Conc K.Ann K.State}
    (h : Conc.Steps P kec Cmd.Hashed (K.conc n) x) {ls : List LCall} (hl : x.log.map (·.1) = ls.map LCall.cmd)
    (hc : LCall.AllOKD kec [] [] ls) :
    x.log.map (·.2) = KCall.runOn hashKeys kec [] (ls.map LCall.asClone) := by
  obtain ⟨s', h3, -⟩ := C48_linearizable .start (h.imp Cmd.Hashed.fine : x.From K .noEmptySubset P kec K.start n)
  have := C89_reference K P kec ls hc
  rw [← hl, Kind.obs, Kind.run, h3] at this
  exact Except.ok.inj this

/-- C91: a thread in a call that uses allowed keys, after the calls that have ended, does not panic. -/
theorem C91_panics {K : Kind} {P : Profile} {kec : Bytes → H256} {n : Nat} {x : Conc K.Ann K.State}
    (h : Conc.Steps P kec Cmd.Hashed (K.conc n) x) {ls : List LCall} (hl : x.log.map (·.1) = ls.map LCall.cmd)
    {l : LCall} (hc : LCall.AllOKD kec [] [] (ls ++ [l])) (j : Nat) (e : Panic) : ¬ x.Runs j l.cmd (.panic e) := by
  intro hj
  have h4 := C48_panics .start (h.imp Cmd.Hashed.fine : x.From K .noEmptySubset P kec K.start n) hj
  have := C89_reference K P kec _ hc
  rw [List.map_append, ← hl, Kind.obs, Kind.run, List.map_singleton, h4] at this
  cases this

/-! ## Threads at work -/

/-- Thread 0 makes a trie and hashes it; thread 1 makes a subset at the same time, thread 2 another one;
both change their subsets and hash them while thread 0 is still at work. -/
def sharedActs : List Act :=
  [.call 0 (LCall.call (.fromIter [(hC, [3]), (hA, [1])])).cmd, .go 0 400, .call 0 (LCall.call (.hash 0)).cmd, .go 0 2,
    .call 1 (LCall.subset 0 [hA]).cmd, .go 1 3, .call 2 (LCall.subset 0 [hB]).cmd, .go 2 400, .go 1 400,
    .call 2 (LCall.call (.insert 1 hB [2])).cmd, .call 1 (LCall.call (.insert 2 hA [4])).cmd, .go 1 400, .go 2 400,
    .call 2 (LCall.call (.hash 1)).cmd, .go 2 3, .call 1 (LCall.call (.hash 2)).cmd, .go 1 400, .go 2 400, .go 0 400]

/-- The calls in the order in which they end. -/
def sharedLog : List LCall :=
  [.call (.fromIter [(hC, [3]), (hA, [1])]), .subset 0 [hB], .subset 0 [hA], .call (.insert 2 hA [4]),
    .call (.insert 1 hB [2]), .call (.hash 2), .call (.hash 1), .call (.hash 0)]

theorem sharedActs_log : ∀ P : Profile, ∀ K : Kind, ((K.conc 3).sched P kec0 sharedActs).map
    (fun x => x.log.map (·.1)) = some (sharedLog.map LCall.cmd) := by
  intro ⟨P⟩ K; cases P <;> cases K <;> decide +kernel

theorem sharedLog_ok : LCall.AllOKD kec0 [] [] sharedLog := by
  refine ⟨.inl trivial, .inl ?_, .inl ?_, .inl ?_, .inl ?_, .inl trivial, .inl trivial, .inl trivial, trivial⟩ <;>
    simp [LCall.OK, LCall.perms, Perm.Allows]

/-- This is a case of `C91_subsets`: the subsets have the root hashes of full tries. -/
example (K : Kind) (P : Profile) : ∃ x : Conc K.Ann K.State, Conc.Steps P kec0 Cmd.Hashed (K.conc 3) x ∧
    x.log.map (·.1) = sharedLog.map LCall.cmd ∧ x.log.map (·.2) = [.unit, .unit, .unit, .unit, .unit,
      .root (Vector.replicate 32 83), .root (Vector.replicate 32 83), .root (Vector.replicate 32 83)] := by
  obtain ⟨x, h1, h2⟩ := Option.map_eq_some_iff.1 (sharedActs_log P K)
  have h3 : Conc.Steps P kec0 Cmd.Hashed (K.conc 3) x := by
    refine Conc.sched_sound h1 fun j c hm => ?_
    simp only [sharedActs, List.mem_cons, List.not_mem_nil, or_false, Act.call.injEq, reduceCtorEq, false_or] at hm
    rcases hm with ⟨_, rfl⟩ | ⟨_, rfl⟩ | ⟨_, rfl⟩ | ⟨_, rfl⟩ | ⟨_, rfl⟩ | ⟨_, rfl⟩ | ⟨_, rfl⟩ | ⟨_, rfl⟩ <;>
      exact ⟨_, rfl, by simp⟩
  refine ⟨x, h3, h2, ?_⟩
  rw [C91_subsets h3 h2 sharedLog_ok]
  decide +kernel

/-- Two threads write to two tries with indexes as keys and hash them; one hash is interrupted. -/
def indexActs : List Act :=
  [.call 0 (KCall.cmd indexKeys (.fromIter [(0, [1]), (1, [2])])), .go 0 400, .call 0 (KCall.cmd indexKeys (.clone 0)),
    .go 0 400, .call 0 (KCall.cmd indexKeys (.hash 0)), .go 0 3,
    .call 1 (KCall.cmd indexKeys (.insert 1 200 (List.replicate 40 7))), .go 1 400,
    .call 1 (KCall.cmd indexKeys (.hash 1)), .go 1 400, .call 1 (KCall.cmd indexKeys (.get 1 0)), .go 1 400, .go 0 400]

/-- This is a case of `C91_index`. -/
example (K : Kind) : ∃ x : Conc K.Ann K.State,
    Conc.Steps .release kec0 (fun c => ∃ k : KCall UInt64, c = k.cmd indexKeys) (K.conc 2) x ∧
    x.log.map (·.2) = KCall.runOn indexKeys kec0 [] [.fromIter [(0, [1]), (1, [2])], .clone 0,
      .insert 1 200 (List.replicate 40 7), .hash 1, .get 1 0, .hash 0] := by
  have h : ((K.conc 2).sched .release kec0 indexActs).map (fun x => x.log.map (·.2)) =
      some (KCall.runOn indexKeys kec0 [] [.fromIter [(0, [1]), (1, [2])], .clone 0,
        .insert 1 200 (List.replicate 40 7), .hash 1, .get 1 0, .hash 0]) := by
    cases K <;> decide +kernel
  obtain ⟨x, h1, h2⟩ := Option.map_eq_some_iff.1 h
  refine ⟨x, Conc.sched_sound h1 fun j c hm => ?_, h2⟩
  simp only [indexActs, List.mem_cons, List.not_mem_nil, or_false, Act.call.injEq, reduceCtorEq, false_or] at hm
  rcases hm with ⟨_, rfl⟩ | ⟨_, rfl⟩ | ⟨_, rfl⟩ | ⟨_, rfl⟩ | ⟨_, rfl⟩ | ⟨_, rfl⟩ <;> exact ⟨_, rfl⟩

end EthTrie
