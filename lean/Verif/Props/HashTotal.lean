import Verif.Cost.Total

/-!
# Property C75: the hashing work of a whole program

C60 bounds one `hash()` by the changes since the last one.  Here is what all of them cost together: a
program calls Keccak at most once for each node it makes, once for each change and once for each
`hash()`, however large its tries are, however many clones and subsets of them it has and in whatever
order it hashes them.
-/

namespace EthTrie

open Nibbles

variable {P : Profile} {kec : Bytes → H256}

/-- The calls that empty a cell. -/
def Cmd.clears : Cmd → Nat
  | .fromIter _ | .insert _ _ _ | .extend _ _ | .delete _ _ => 1
  | _ => 0

/-- The calls of `hash()`. -/
def Cmd.hashes : Cmd → Nat
  | .hash _ => 1
  | _ => 0

/-- The nodes that a call looks at if it is `hash()`. -/
def Sys.looked {α S : Type} [TrieKind α S] (P : Profile) (kec : Bytes → H256) (s : Sys α S) : Cmd → Nat
  | .hash i => s.hashReads P kec i
  | _ => 0

/-! ## One call -/

theorem extendUntil_stop : ∀ (xs : List (Nibbles × ValOrHash)) (t : Trie CellId) (s : Heap),
    (extendUntil P t xs s).2 = (trieExtend P t xs).stop s
  | [], t, s => rfl
  | (k, v) :: xs, t, s => by
    unfold extendUntil trieExtend
    rw [Prog.stop_bind]
    cases hr : (trieInsert P t k v).run s with
    | error e => rfl
    | ok r => exact extendUntil_stop xs r.1 r.2

theorem over_then {β γ : Type} {p : Prog CellId β} (h : p.Quiet) (f : β → Prog CellId γ)
    (hf : ∀ b s, (f b).over s ≤ 1 ∧ (f b).stored s = 0) (s : Heap) :
    (p >>= f).over s ≤ 1 ∧ (p >>= f).stored s = 0 := by
  show (p.bind f).over s ≤ 1 ∧ (p.bind f).stored s = 0
  rw [Prog.over_bind, Prog.stored_bind, h.over, h.stored]
  simp only [Nat.zero_add]
  cases p.run s with
  | error e => exact ⟨Nat.zero_le _, rfl⟩
  | ok r => exact hf r.1 r.2

theorem over_write_none {β : Type} (a : CellId) (b : β) (s : Heap) :
    (Prog.write a none (.ret b) : Prog CellId β).over s ≤ 1 ∧
      (Prog.write a none (.ret b) : Prog CellId β).stored s = 0 := by
  refine ⟨?_, rfl⟩
  simp only [Prog.over]
  split <;> simp

/-- What a call pays. -/
structure Paid (P : Profile) (kec : Bytes → H256) (s : Sys CellId Heap) (c : Cmd) (n : Nat) : Prop where
  cells : (s.execC P kec c).1.state.empties + n ≤ s.state.empties + s.newNodes P kec c + c.clears
  kecs : s.keccaks P kec c ≤ n + c.hashes
  reads : s.looked P kec c ≤ 497 * c.hashes + 496 * n

theorem paid_of {β : Type} {s : Sys CellId Heap} {c : Cmd} {p : Prog CellId β}
    (hs : (s.execC P kec c).1.state = p.stop s.state) (ha : s.newNodes P kec c = p.allocs s.state)
    (ho : p.over s.state ≤ c.clears) (hk : s.keccaks P kec c ≤ p.stored s.state + c.hashes)
    (hr : s.looked P kec c ≤ 497 * c.hashes + 496 * p.stored s.state) :
    Paid P kec s c (p.stored s.state) := by
  refine ⟨?_, hk, hr⟩
  have := p.empties_stop s.state
  rw [hs, ha]
  omega

theorem paid_execC {M : Mode} {s : Sys CellId Heap} (h : Live .hashed M P kec s) (ht : Tidy s) (c : Cmd) :
    ∃ n, Paid P kec s c n := by
  obtain ⟨o, ho, hs⟩ := ht
  have none : ∀ {i : Nat} {f : Trie CellId → R (Sys CellId Heap × Obs)}, s.hs[i]? = .none →
      s.on i f = .ok (s, .noHandle) := by
    intro i f hi
    unfold Sys.on
    rw [hi]
  have some : ∀ {i : Nat} {t : Trie CellId} {f : Trie CellId → R (Sys CellId Heap × Obs)},
      s.hs[i]? = .some t → s.on i f = f t := fun hi => exec_on (K := .hashed) hi
  have someS : ∀ {i : Nat} {t : Trie CellId} {f : Trie CellId → Sys CellId Heap},
      s.hs[i]? = .some t → s.onS i f = f t := by
    intro i t f hi
    unfold Sys.onS
    rw [hi]
  cases c with
  | new =>
    exact ⟨_, paid_of (p := (newEmpty : Prog CellId (Trie CellId))) rfl rfl (Nat.zero_le _) (Nat.zero_le _) (Nat.zero_le _)⟩
  | fromIter xs =>
    refine ⟨_, paid_of (p := (EthTrie.fromIter P (packEntries xs) : Prog CellId (Trie CellId))) ?_ rfl ?_
      (Nat.zero_le _) (Nat.zero_le _)⟩
    · unfold Sys.execC
      simp only [Sys.exec, Sys.afterPanic]
      cases hr : (EthTrie.fromIter P (packEntries xs) : Prog CellId (Trie CellId)).run s.state with
      | error e => rfl
      | ok r => exact (Prog.stop_of_run hr).symm
    · refine (over_then quiet_empty _ (fun b s' => ?_) s.state).1
      exact over_then (quiet_extend _ _) _ (fun b s => over_write_none _ _ s) s'
  | clone i =>
    refine ⟨_, paid_of (p := (.ret () : Prog CellId Unit)) ?_ rfl (Nat.zero_le _) (Nat.zero_le _) (Nat.zero_le _)⟩
    unfold Sys.execC
    simp only [Sys.exec, Sys.afterPanic]
    cases hi : s.hs[i]? with
    | none => rw [none hi]; rfl
    | some t => rw [some hi]; rfl
  | get i k =>
    refine ⟨_, paid_of (p := (.ret () : Prog CellId Unit)) ?_ rfl (Nat.zero_le _) (Nat.zero_le _) (Nat.zero_le _)⟩
    unfold Sys.execC
    simp only [Sys.exec, Sys.afterPanic]
    cases hi : s.hs[i]? with
    | none => rw [none hi]; rfl
    | some t => rw [some hi]; cases t.get P (ofList k) <;> rfl
  | items i =>
    refine ⟨_, paid_of (p := (.ret () : Prog CellId Unit)) ?_ rfl (Nat.zero_le _) (Nat.zero_le _) (Nat.zero_le _)⟩
    unfold Sys.execC
    simp only [Sys.exec, Sys.afterPanic]
    cases hi : s.hs[i]? with
    | none => rw [none hi]; rfl
    | some t => rw [some hi]; cases t.items P <;> rfl
  | eq i j =>
    refine ⟨_, paid_of (p := (.ret () : Prog CellId Unit)) ?_ rfl (Nat.zero_le _) (Nat.zero_le _) (Nat.zero_le _)⟩
    unfold Sys.execC
    simp only [Sys.exec, Sys.afterPanic]
    cases hi : s.hs[i]? with
    | none => rw [none hi]; rfl
    | some t =>
      rw [some hi]
      cases hj : s.hs[j]? with
      | none => rw [none hj]; rfl
      | some u => rw [some hj]; rfl
  | insert i k v =>
    cases hi : s.hs[i]? with
    | none =>
      refine ⟨_, paid_of (p := (.ret () : Prog CellId Unit)) ?_ ?_ (Nat.zero_le _) (Nat.zero_le _) (Nat.zero_le _)⟩
      · unfold Sys.execC
        simp only [Sys.exec]
        rw [none hi]
        rfl
      · simp only [Sys.newNodes, hi]
        rfl
    | some t =>
      refine ⟨_, paid_of (p := t.insert P (ofList k) v) ?_ ?_ ?_ (Nat.zero_le _) (Nat.zero_le _)⟩
      · unfold Sys.execC
        simp only [Sys.exec, Sys.afterPanic]
        rw [some hi, someS hi]
        cases hr : (t.insert P (ofList k) v).run s.state with
        | error e => rfl
        | ok r => exact (Prog.stop_of_run hr).symm
      · simp only [Sys.newNodes, hi]
      · exact (over_then (quiet_insert _ _ _) _ (fun b s => over_write_none _ _ s) s.state).1
  | extend i xs =>
    cases hi : s.hs[i]? with
    | none =>
      refine ⟨_, paid_of (p := (.ret () : Prog CellId Unit)) ?_ ?_ (Nat.zero_le _) (Nat.zero_le _) (Nat.zero_le _)⟩
      · unfold Sys.execC
        simp only [Sys.exec]
        rw [none hi]
        rfl
      · simp only [Sys.newNodes, hi]
        rfl
    | some t =>
      refine ⟨_, paid_of (p := t.extend P (packEntries xs)) ?_ ?_ ?_ (Nat.zero_le _) (Nat.zero_le _)⟩
      · unfold Sys.execC
        simp only [Sys.exec, Sys.afterPanic]
        rw [some hi, someS hi]
        cases hr : (t.extend P (packEntries xs)).run s.state with
        | error e =>
          show (extendUntil P t (packEntries xs) s.state).2 = _
          rw [extendUntil_stop]
          unfold Trie.extend at hr ⊢
          rw [Prog.bind_run] at hr
          rw [Prog.stop_bind]
          cases hp : (trieExtend P t (packEntries xs)).run s.state with
          | error e => rfl
          | ok r => rw [hp] at hr; cases hr
        | ok r => exact (Prog.stop_of_run hr).symm
      · simp only [Sys.newNodes, hi]
      · exact (over_then (quiet_extend _ _) _ (fun b s => over_write_none _ _ s) s.state).1
  | delete i k =>
    cases hi : s.hs[i]? with
    | none =>
      refine ⟨_, paid_of (p := (.ret () : Prog CellId Unit)) ?_ ?_ (Nat.zero_le _) (Nat.zero_le _) (Nat.zero_le _)⟩
      · unfold Sys.execC
        simp only [Sys.exec]
        rw [none hi]
        rfl
      · simp only [Sys.newNodes, hi]
        rfl
    | some t =>
      refine ⟨_, paid_of (p := t.delete P (ofList k)) ?_ ?_ ?_ (Nat.zero_le _) (Nat.zero_le _)⟩
      · unfold Sys.execC
        simp only [Sys.exec, Sys.afterPanic]
        rw [some hi, someS hi]
        cases hr : (t.delete P (ofList k)).run s.state with
        | error e => rfl
        | ok r =>
          obtain ⟨⟨t', x⟩, σ⟩ := r
          exact (Prog.stop_of_run hr).symm
      · simp only [Sys.newNodes, hi]
      · exact (over_then (quiet_delete _ _) _ (fun b s => over_write_none _ _ s) s.state).1
  | hash i =>
    cases hi : s.hs[i]? with
    | none =>
      refine ⟨_, paid_of (p := (.ret () : Prog CellId Unit)) ?_ ?_ (Nat.zero_le _) ?_ ?_⟩
      · unfold Sys.execC
        simp only [Sys.exec]
        rw [none hi]
        rfl
      · simp only [Sys.newNodes, hi]
        rfl
      · simp only [Sys.keccaks, hi]
        exact Nat.zero_le _
      · simp only [Sys.looked, Sys.hashReads, hi]
        exact Nat.zero_le _
    | some t =>
      have hm := hs t (List.mem_of_getElem? hi)
      have hok := h.hash_exact hi
      refine ⟨_, paid_of (p := t.rootHash P kec) ?_ ?_ ?_ ?_ ?_⟩
      · unfold Sys.execC
        simp only [Sys.exec, Sys.afterPanic]
        rw [some hi, someS hi]
        cases hr : (t.rootHash P kec).run s.state with
        | error e => rfl
        | ok r => exact (Prog.stop_of_run hr).symm
      · simp only [Sys.newNodes, hi]
      · rw [over_rootHash ho hm]; exact Nat.zero_le _
      · simp only [Sys.keccaks, hi]
        exact keccaks_root t s.state
      · simp only [Sys.looked, Sys.hashReads, hi, Cmd.hashes]
        cases hr : (t.rootHash P kec).run s.state with
        | error e =>
          rw [show t.rootHash P kec s.state = _ from hr] at hok
          cases hok
        | ok r => exact reads_rootHash_ok ho hm hr
  | subset i ks =>
    cases hi : s.hs[i]? with
    | none =>
      refine ⟨_, paid_of (p := (.ret () : Prog CellId Unit)) ?_ ?_ (Nat.zero_le _) ?_ (Nat.zero_le _)⟩
      · unfold Sys.execC
        simp only [Sys.exec]
        rw [none hi]
        rfl
      · simp only [Sys.newNodes, hi]
        rfl
      · simp only [Sys.keccaks, hi]
        exact Nat.zero_le _
    | some t =>
      have hm := hs t (List.mem_of_getElem? hi)
      refine ⟨_, paid_of (p := createTrieSubset P kec t (ks.map ofList)) ?_ ?_ ?_ ?_ (Nat.zero_le _)⟩
      · unfold Sys.execC
        simp only [Sys.exec, Sys.afterPanic]
        rw [some hi, someS hi]
        cases hr : (createTrieSubset P kec t (ks.map ofList)).run s.state with
        | error e => rfl
        | ok r =>
          obtain ⟨x, σ⟩ := r
          cases x <;> exact (Prog.stop_of_run hr).symm
      · simp only [Sys.newNodes, hi]
      · rw [over_subset ho hm]; exact Nat.zero_le _
      · simp only [Sys.keccaks, hi]
        exact keccaks_subset t _ s.state
  | subsets i kss =>
    cases hi : s.hs[i]? with
    | none =>
      refine ⟨_, paid_of (p := (.ret () : Prog CellId Unit)) ?_ ?_ (Nat.zero_le _) ?_ (Nat.zero_le _)⟩
      · unfold Sys.execC
        simp only [Sys.exec]
        rw [none hi]
        rfl
      · simp only [Sys.newNodes, hi]
        rfl
      · simp only [Sys.keccaks, hi]
        exact Nat.zero_le _
    | some t =>
      have hm := hs t (List.mem_of_getElem? hi)
      refine ⟨_, paid_of (p := createTrieSubsets P kec t (kss.map fun ks => ks.map ofList)) ?_ ?_ ?_ ?_ (Nat.zero_le _)⟩
      · unfold Sys.execC
        simp only [Sys.exec, Sys.afterPanic]
        rw [some hi, someS hi]
        cases hr : (createTrieSubsets P kec t (kss.map fun ks => ks.map ofList)).run s.state with
        | error e => rfl
        | ok r =>
          obtain ⟨x, σ⟩ := r
          cases x <;> exact (Prog.stop_of_run hr).symm
      · simp only [Sys.newNodes, hi]
      · rw [createTrieSubsets, over_subsetsFrom _ ho (fit_new ho t hm)]; exact Nat.zero_le _
      · simp only [Sys.keccaks, hi]
        exact keccaks_subsets _ _ s.state

/-! ## Programs -/

theorem paid_runC {M : Mode} : ∀ (cs : List Cmd) {s : Sys CellId Heap}, Live .hashed M P kec s → Tidy s →
    (∀ c ∈ cs, c.Short ∧ permitted .hashed M c ∧
      ∀ s : Sys Kind.hashed.Ann Kind.hashed.State, s.Catchable .hashed M c) →
    ∃ n, (s.runC P kec cs).1.state.empties + n ≤
        s.state.empties + s.total P kec (Sys.newNodes P kec) cs + (cs.map Cmd.clears).sum ∧
      s.total P kec (Sys.keccaks P kec) cs ≤ n + (cs.map Cmd.hashes).sum ∧
      s.total P kec (Sys.looked P kec) cs ≤ 497 * (cs.map Cmd.hashes).sum + 496 * n
  | [], s, hl, ht, _ => ⟨0, Nat.le_refl _, Nat.le_refl _, Nat.le_refl _⟩
  | c :: cs, s, hl, ht, h => by
    obtain ⟨h1, h2, h3⟩ := h c (by simp)
    obtain ⟨n, k1, k2, k3⟩ := paid_execC hl ht c
    obtain ⟨m, g1, g2, g3⟩ := paid_runC cs (hl.execC h1 h2 (h3 s)) (After.execC hl ht c).1
      fun c hc => h c (by simp [hc])
    refine ⟨n + m, ?_, ?_, ?_⟩ <;> simp only [Sys.total, List.map_cons, List.sum_cons]
    · show ((s.execC P kec c).1.runC P kec cs).1.state.empties + _ ≤ _
      replace g1 : ((s.execC P kec c).1.runC P kec cs).1.state.empties + m ≤
        (s.execC P kec c).1.state.empties + (s.execC P kec c).1.total P kec (Sys.newNodes P kec) cs + _ := g1
      omega
    · replace g2 : (s.execC P kec c).1.total P kec (Sys.keccaks P kec) cs ≤ _ := g2
      omega
    · replace g3 : (s.execC P kec c).1.total P kec (Sys.looked P kec) cs ≤ _ := g3
      omega

/-- C75: however a program uses `HashedPartialTrie`s, it calls Keccak at most once for each node that it
makes (C61 and C62 bound these), once for each call that changes a trie and once for each `hash()`. -/
theorem C75_total (cs : List Cmd) (hcs : ∀ c ∈ cs, c.Short) :
    Kind.hashed.start.total P kec (Sys.keccaks P kec) cs ≤
      Kind.hashed.start.total P kec (Sys.newNodes P kec) cs + (cs.map Cmd.clears).sum +
        (cs.map Cmd.hashes).sum := by
  obtain ⟨n, h1, h2, -⟩ := paid_runC (P := P) (kec := kec) cs (s := Kind.hashed.start) (M := .any) .start .start (short_any hcs)
  have z : (Kind.hashed.start.state : Heap).empties = 0 := rfl
  rw [z] at h1
  refine Nat.le_trans h2 ?_
  have h1' : _ + n ≤ 0 + Kind.hashed.start.total P kec (Sys.newNodes P kec) cs + (cs.map Cmd.clears).sum := h1
  omega

/-- C75: all calls of `hash()` together look at a constant number of nodes for each of them, and for each
node that the program makes and each change. -/
theorem C75_looked (cs : List Cmd) (hcs : ∀ c ∈ cs, c.Short) :
    Kind.hashed.start.total P kec (Sys.looked P kec) cs ≤ 497 * (cs.map Cmd.hashes).sum +
      496 * (Kind.hashed.start.total P kec (Sys.newNodes P kec) cs + (cs.map Cmd.clears).sum) := by
  obtain ⟨n, h1, -, h3⟩ := paid_runC (P := P) (kec := kec) cs (s := Kind.hashed.start) (M := .any) .start .start (short_any hcs)
  have z : (Kind.hashed.start.state : Heap).empties = 0 := rfl
  rw [z] at h1
  refine Nat.le_trans h3 ?_
  have h1' : _ + n ≤ 0 + Kind.hashed.start.total P kec (Sys.newNodes P kec) cs + (cs.map Cmd.clears).sum := h1
  omega

theorem total_made {M : Mode} : ∀ (cs : List Cmd) {s : Sys CellId Heap}, Live .hashed M P kec s →
    (∀ c ∈ cs, c.Short ∧ permitted .hashed M c ∧
      ∀ s : Sys Kind.hashed.Ann Kind.hashed.State, s.Catchable .hashed M c) →
    (∀ c ∈ cs, ∀ i ks, c ≠ .subset i ks) → (∀ c ∈ cs, ∀ i kss, c ≠ .subsets i kss) →
    s.total P kec (Sys.newNodes P kec) cs ≤ (cs.map (Cmd.made fun _ => 0)).sum
  | [], s, _, _, _, _ => Nat.le_refl _
  | c :: cs, s, hl, h, n1, n2 => by
    obtain ⟨h1, h2, h3⟩ := h c (by simp)
    have := total_made cs (hl.execC h1 h2 (h3 s)) (fun c hc => h c (by simp [hc]))
      (fun c hc => n1 c (by simp [hc])) fun c hc => n2 c (by simp [hc])
    have le : s.newNodes P kec c ≤ c.made s.size := C61_made hl c
    have : c.made s.size = c.made fun _ => 0 := by
      cases c with
      | subset i ks => exact absurd rfl (n1 _ (by simp) i ks)
      | subsets i kss => exact absurd rfl (n2 _ (by simp) i kss)
      | _ => rfl
    simp only [Sys.total, List.map_cons, List.sum_cons]
    have e' : (s.execC P kec c).1.total P kec (Sys.newNodes P kec) cs ≤ _ := ‹_›
    omega

/-- C75: without subsets, the number of calls of Keccak is bounded by the lengths of the keys that are
inserted and deleted and by the number of calls, for example when a trie is hashed after every change. -/
theorem C75_keys (cs : List Cmd) (hcs : ∀ c ∈ cs, c.Short) (h1 : ∀ c ∈ cs, ∀ i ks, c ≠ .subset i ks)
    (h2 : ∀ c ∈ cs, ∀ i kss, c ≠ .subsets i kss) :
    Kind.hashed.start.total P kec (Sys.keccaks P kec) cs ≤
      (cs.map (Cmd.made fun _ => 0)).sum + (cs.map Cmd.clears).sum + (cs.map Cmd.hashes).sum := by
  have h := C75_total (P := P) (kec := kec) cs hcs
  have hm := total_made (P := P) (kec := kec) cs (s := Kind.hashed.start) (M := .any) .start (short_any hcs) h1 h2
  have hm' : Kind.hashed.start.total P kec (Sys.newNodes P kec) cs ≤ _ := hm
  omega

/-! ## Tries without cache -/

theorem standard_hash (s : Sys Unit Unit) (i : Nat) : (s.execC P kec (.hash i)).1 = s := by
  unfold Sys.execC
  simp only [Sys.exec, Sys.afterPanic, Sys.on, Sys.onS]
  cases s.hs[i]? with
  | none => rfl
  | some t =>
    simp only
    cases (t.rootHash P kec).run s.state <;> rfl

theorem standard_again (s : Sys Unit Unit) (i : Nat) : ∀ m : Nat,
    s.total P kec (Sys.keccaks P kec) (List.replicate m (.hash i)) = m * s.keccaks P kec (.hash i)
  | 0 => (Nat.zero_mul _).symm
  | m + 1 => by
    rw [List.replicate_succ, Sys.total, standard_hash, standard_again s i m, Nat.add_mul, Nat.one_mul,
      Nat.add_comm]

theorem Sys.total_append {α S : Type} [TrieKind α S] (f : Sys α S → Cmd → Nat) : ∀ (cs ds : List Cmd)
    (s : Sys α S), s.total P kec f (cs ++ ds) = s.total P kec f cs + (s.runC P kec cs).1.total P kec f ds
  | [], ds, s => by rw [List.nil_append, Sys.total, Nat.zero_add]; rfl
  | c :: cs, ds, s => by
    rw [List.cons_append, Sys.total, Sys.total, Sys.total_append f cs ds, Nat.add_assoc]
    rfl

theorem costProg_short : ∀ c ∈ costProg, c.Short := by
  simp only [costProg, List.forall_mem_cons, Cmd.Short, List.forall_mem_map]
  simp

theorem total_hashes (i : Nat) : ∀ (m : Nat) (s : Sys CellId Heap),
    s.total P kec (Sys.newNodes P kec) (List.replicate m (.hash i)) = 0
  | 0, _ => rfl
  | m + 1, s => by
    rw [List.replicate_succ, Sys.total, total_hashes i m, Nat.add_zero]
    simp only [Sys.newNodes]
    split
    · rfl
    · exact Nat.le_zero.1 ((made_rootHash _).allocs _)

/-- C75 is about the cache: a `StandardTrie` does all the work again for each `hash()`.  The trie of
`costProg` has 48 leaves with long values and three branches; hashing it `m` times calls Keccak `52 * m`
times, but at most `m + 209` times for a `HashedPartialTrie`. -/
theorem C75_standard (m : Nat) :
    Kind.standard.start.total P kec0 (Sys.keccaks P kec0) (costProg ++ List.replicate m (.hash 0)) = 52 * m ∧
    Kind.hashed.start.total P kec0 (Sys.keccaks P kec0) (costProg ++ List.replicate m (.hash 0)) ≤ 209 + m := by
  constructor
  · refine (Sys.total_append (α := Unit) (S := Unit) _ _ _ _).trans ?_
    rw [standard_again]
    have h : ((Kind.standard.start : Sys Unit Unit).total P kec0 (Sys.keccaks P kec0) costProg,
        ((Kind.standard.start : Sys Unit Unit).runC P kec0 costProg).1.keccaks P kec0 (.hash 0)) = (0, 52) := by
      obtain ⟨P⟩ := P
      cases P <;> decide +kernel
    rw [(Prod.mk.inj h).1, (Prod.mk.inj h).2]
    omega
  · refine Nat.le_trans (C75_total _ fun c hc => ?_) ?_
    · rcases List.mem_append.1 hc with h | h
      · exact costProg_short c h
      · rw [List.eq_of_mem_replicate h]; trivial
    · have h1 : Kind.hashed.start.total P kec0 (Sys.newNodes P kec0) (costProg ++ List.replicate m (.hash 0)) = _ :=
        Sys.total_append (α := CellId) (S := Heap) _ _ _ _
      rw [h1, total_hashes]
      have h2 : (Kind.hashed.start : Sys CellId Heap).total P kec0 (Sys.newNodes P kec0) costProg = 208 := by
        obtain ⟨P⟩ := P
        cases P <;> decide +kernel
      have h3 : ((costProg ++ List.replicate m (Cmd.hash 0)).map Cmd.clears).sum = 1 := by
        rw [List.map_append, List.sum_append, List.map_replicate]
        simp [costProg, Cmd.clears]
      have h4 : ((costProg ++ List.replicate m (Cmd.hash 0)).map Cmd.hashes).sum = m := by
        rw [List.map_append, List.sum_append, List.map_replicate]
        simp [costProg, Cmd.hashes]
      rw [h2, h3, h4]

/-! ## Examples -/

/-- A trie that is hashed after every change, with a clone and subsets. -/
def totalProg : List Cmd :=
  costProg ++ [.hash 0, .insert 0 [1, 3] (.val (List.replicate 40 1)), .hash 0, .hash 0, .clone 0,
    .delete 1 [2, 2], .hash 1, .hash 0, .subset 0 [[1, 3]], .hash 2, .subsets 1 [[[1, 3]], [[2, 3]]], .hash 3,
    .subset 0 [], .insert 0 [5, 5] (.val [1]), .hash 0]

/-- The conditions of `C75_total` and `C75_looked`, and of `C75_keys` for the first calls. -/
example : (∀ c ∈ totalProg, c.Short) ∧ ∀ c ∈ totalProg.take 9, (∀ i ks, c ≠ .subset i ks) ∧
    ∀ i kss, c ≠ .subsets i kss := by
  constructor
  · intro c hc
    rcases List.mem_append.1 hc with h | h
    · exact costProg_short c h
    · simp only [List.mem_cons, List.not_mem_nil, or_false] at h
      rcases h with rfl | rfl | rfl | rfl | rfl | rfl | rfl | rfl | rfl | rfl | rfl | rfl | rfl | rfl | rfl <;>
        simp [Cmd.Short]
  · simp [totalProg, costProg]

/-- The calls of Keccak: first 52 for the trie, 3 after a change and for a subset (leaf, branch, root), 2
after a deletion and 1 for each other `hash()`; the subset for no keys calls it for the root, and so does
the last `hash()` (the insertion emptied the cell).  Then what C75 compares. -/
example : ∀ P : Profile,
    (let s (n : Nat) := (Kind.hashed.runC P kec0 (totalProg.take n)).1
     (List.range 17).filterMap fun n => (totalProg[n]?).map fun c => (s n).keccaks P kec0 c) =
    [0, 52, 0, 3, 1, 0, 0, 2, 1, 0, 3, 0, 3, 1, 0, 1] ∧
    (Kind.hashed.start.total P kec0 (Sys.keccaks P kec0) totalProg,
      Kind.hashed.start.total P kec0 (Sys.looked P kec0) totalProg,
      Kind.hashed.start.total P kec0 (Sys.newNodes P kec0) totalProg, (totalProg.map Cmd.clears).sum,
      (totalProg.map Cmd.hashes).sum) = (67, 248, 316, 4, 8) := by
  intro ⟨P⟩; cases P <;> decide +kernel

end EthTrie
