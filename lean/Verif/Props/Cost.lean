import Verif.Cost.Main

/-!
# Property C60: hashing is incremental

`hash()` keeps the hashes of nodes in their cache cells so that it does not have to compute them again.
The theorems about its result say nothing about this: a trie that never caches has the same hash.  Here
is what the cache is for.
-/

namespace EthTrie

open Nibbles

variable {P : Profile} {kec : Bytes → H256}

theorem Tidy.start : Tidy Kind.hashed.start :=
  ⟨fun _ => none, ⟨nofun, nofun, nofun, nofun⟩, fun _ h => by cases h⟩

theorem Tidy.runC {M : Mode} : ∀ (cs : List Cmd) {s : Sys CellId Heap}, Live .hashed M P kec s → Tidy s →
    (∀ c ∈ cs, c.Short ∧ permitted .hashed M c ∧
      ∀ s : Sys Kind.hashed.Ann Kind.hashed.State, s.Catchable .hashed M c) →
    Live .hashed M P kec (s.runC P kec cs).1 ∧ Tidy (s.runC P kec cs).1 ∧
    ∀ i t, s.hs[i]? = some t → ∃ t', (s.runC P kec cs).1.hs[i]? = some t' ∧
      t'.coldN (s.runC P kec cs).1.state ≤ t.coldN s.state + (cs.map (Cmd.work i)).sum
  | [], s, hl, ht, _ => ⟨hl, ht, fun i t hi => ⟨t, hi, Nat.le_refl _⟩⟩
  | c :: cs, s, hl, ht, h => by
    obtain ⟨h1, h2, h3⟩ := h c (by simp)
    obtain ⟨g1, g2⟩ := After.execC hl ht c
    obtain ⟨k1, k2, k3⟩ := Tidy.runC cs (hl.execC h1 h2 (h3 s)) g1 fun c hc => h c (by simp [hc])
    refine ⟨k1, k2, fun i t hi => ?_⟩
    obtain ⟨t1, e1, le1⟩ := g2 i t hi
    obtain ⟨t2, e2, le2⟩ := k3 i t1 e1
    refine ⟨t2, e2, ?_⟩
    simp only [List.map_cons, List.sum_cons]
    show t2.coldN _ ≤ _
    have le2' : t2.coldN ((s.execC P kec c).1.runC P kec cs).1.state ≤ _ := le2
    show t2.coldN ((s.execC P kec c).1.runC P kec cs).1.state ≤ _
    omega

theorem short_any {cs : List Cmd} (h : ∀ c ∈ cs, c.Short) : ∀ c ∈ cs, c.Short ∧
    permitted .hashed .any c ∧ ∀ s : Sys Kind.hashed.Ann Kind.hashed.State, s.Catchable .hashed .any c :=
  fun c hc => ⟨h c hc, permitted_any _ _, fun s => catchable_any s c⟩

theorem hashReads_eq {s : Sys CellId Heap} {i : Nat} {t : Trie CellId} (hi : s.hs[i]? = some t) :
    s.hashReads P kec i = (t.rootHash P kec).reads s.state := by
  unfold Sys.hashReads
  rw [hi]

/-- After `hash()` has computed something, nothing is cold. -/
theorem coldN_hash {M : Mode} {s : Sys CellId Heap} (hl : Live .hashed M P kec s) (ht : Tidy s) {i : Nat}
    {t : Trie CellId} (hi : s.hs[i]? = some t) (hc : s.state.cell t.ann.id = none) :
    (s.execC P kec (.hash i)).1.hs[i]? = some t ∧
      t.coldN (s.execC P kec (.hash i)).1.state = 0 := by
  obtain ⟨o, ho, hs⟩ := ht
  have hr := hl.hash_exact hi
  revert hr
  cases hr : (t.rootHash P kec).run s.state with
  | error e =>
    intro h
    cases h
  | ok r =>
    intro _
    obtain ⟨x, σ⟩ := r
    have he : s.execC P kec (.hash i) = (⟨σ, s.hs⟩, .ok (.root x)) := by
      unfold Sys.execC
      simp only [Sys.exec]
      rw [exec_on (K := .hashed) hi]
      rw [show t.rootHash P kec s.state = _ from hr]
      rfl
    rw [he]
    obtain ⟨o1, k1, k2, k3, k4⟩ := (tri_rootHash ho (hs t (List.mem_of_getElem? hi))).run ho hr
    exact ⟨hi, Trie.Hot.coldN (k4 hc)⟩

/-- C60: when `hash()` has computed the hash of a trie, then after any calls (with or without panics,
on this trie and on others) it looks at no more nodes than a number that depends only on the lengths of
the keys that were inserted and deleted in this trie, and not on its size.

The factor 496 is 16 children for each node that was made, each with at most 31 nodes that are too small
to have a hash of their own (nodes with encodings of less than 32 bytes are not cached). -/
theorem C60_again (cs ds : List Cmd) (hcs : ∀ c ∈ cs, c.Short) (hds : ∀ c ∈ ds, c.Short) {i : Nat}
    {t : Trie CellId} (hi : (Kind.hashed.runC P kec cs).1.hs[i]? = some t)
    (hc : TrieKind.cacheGet t.ann (Kind.hashed.runC P kec cs).1.state = none) :
    (((Kind.hashed.runC P kec cs).1.execC P kec (.hash i)).1.runC P kec ds).1.hashReads P kec i ≤
      1 + 496 * (1 + (ds.map (Cmd.work i)).sum) := by
  obtain ⟨h1, h2, -⟩ := Tidy.runC (P := P) (kec := kec) cs (s := Kind.hashed.start) (M := .any) .start .start (short_any hcs)
  obtain ⟨e1, z⟩ := coldN_hash h1 h2 hi hc
  obtain ⟨g1, -⟩ := After.execC h1 h2 (.hash i)
  have hl := h1.execC (c := .hash i) trivial (permitted_any _ _) (catchable_any _ _)
  obtain ⟨-, -, k3⟩ := Tidy.runC ds hl g1 (short_any hds)
  obtain ⟨t', e, le⟩ := k3 i t e1
  refine Nat.le_trans (Nat.le_of_eq (hashReads_eq e)) ?_
  refine Nat.le_trans (reads_rootHash t' _) ?_
  have : t.coldN ((Kind.hashed.runC P kec cs).1.execC P kec (.hash i)).1.state = 0 := z
  have le' : t'.coldN (((Kind.hashed.runC P kec cs).1.execC P kec (.hash i)).1.runC P kec ds).1.state ≤
    t.coldN ((Kind.hashed.runC P kec cs).1.execC P kec (.hash i)).1.state + _ := le
  omega

/-- C60, a clone: it has the hashes that were computed before. -/
theorem C60_clone (cs ds es : List Cmd) (hcs : ∀ c ∈ cs, c.Short) (hds : ∀ c ∈ ds, c.Short)
    (hes : ∀ c ∈ es, c.Short) {i : Nat}
    {t : Trie CellId} (hi : (Kind.hashed.runC P kec cs).1.hs[i]? = some t)
    (hc : TrieKind.cacheGet t.ann (Kind.hashed.runC P kec cs).1.state = none)
    {s : Sys CellId Heap} (hs : (((Kind.hashed.runC P kec cs).1.execC P kec (.hash i)).1.runC P kec ds).1 = s) :
    ((s.execC P kec (.clone i)).1.runC P kec es).1.hashReads P kec s.hs.length ≤
      1 + 496 * (1 + (ds.map (Cmd.work i)).sum + (es.map (Cmd.work s.hs.length)).sum) := by
  obtain ⟨h1, h2, -⟩ := Tidy.runC (P := P) (kec := kec) cs (s := Kind.hashed.start) (M := .any) .start .start (short_any hcs)
  obtain ⟨e1, z⟩ := coldN_hash h1 h2 hi hc
  obtain ⟨g1, -⟩ := After.execC h1 h2 (.hash i)
  have hl := h1.execC (c := .hash i) trivial (permitted_any _ _) (catchable_any _ _)
  obtain ⟨l3, t3, k3⟩ := Tidy.runC ds hl g1 (short_any hds)
  obtain ⟨u, e, le⟩ := k3 i t e1
  have l3' : Live .hashed .any P kec s := hs ▸ l3
  have t3' : Tidy s := hs ▸ t3
  have e' : s.hs[i]? = some u := hs ▸ e
  have le' : u.coldN s.state ≤ (ds.map (Cmd.work i)).sum := by
    have : t.coldN ((Kind.hashed.runC P kec cs).1.execC P kec (.hash i)).1.state = 0 := z
    have le' : u.coldN (((Kind.hashed.runC P kec cs).1.execC P kec (.hash i)).1.runC P kec ds).1.state ≤
      t.coldN ((Kind.hashed.runC P kec cs).1.execC P kec (.hash i)).1.state + _ := le
    rw [hs] at le'
    omega
  have hcl : (s.execC P kec (.clone i)).1 = ⟨s.state, s.hs ++ [u]⟩ := by
    unfold Sys.execC
    simp only [Sys.exec]
    rw [exec_on (K := .hashed) e']
    rfl
  obtain ⟨g4, -⟩ := After.execC l3' t3' (.clone i)
  have l4 := l3'.execC (c := .clone i) trivial (permitted_any _ _) (catchable_any _ _)
  obtain ⟨-, -, k5⟩ := Tidy.runC es l4 g4 (short_any hes)
  rw [hcl] at k5 ⊢
  obtain ⟨v, ev, lev⟩ := k5 s.hs.length u (by simp)
  rw [hashReads_eq ev]
  refine Nat.le_trans (reads_rootHash v _) ?_
  simp only at lev
  omega

/-- C60: `hash()` never looks at a node twice. -/
theorem C60_once (s : Sys CellId Heap) {i : Nat} {t : Trie CellId} (hi : s.hs[i]? = some t) :
    s.hashReads P kec i ≤ t.nodeCount := by
  rw [hashReads_eq hi]
  exact reads_rootHash_nodeCount t _

/-- C60: if there is a hash in the cell of the root, `hash()` looks at nothing else. -/
theorem C60_cached (s : Sys CellId Heap) {i : Nat} {t : Trie CellId} (hi : s.hs[i]? = some t) {x : H256}
    (hc : TrieKind.cacheGet t.ann s.state = some x) : s.hashReads P kec i = 1 := by
  rw [hashReads_eq hi]
  show 1 + Prog.reads (match TrieKind.cacheGet t.ann s.state with
    | some h => Prog.ret h
    | none => hashTrie P kec t) s.state = 1
  rw [hc]
  rfl

/-- C60, the condition of `C60_again` and `C60_clone`: it holds for all tries of a program that makes no
subset for an empty list of keys. -/
theorem C60_computed (cs : List Cmd) (hcs : ∀ c ∈ cs, c.Short)
    (hp : ∀ c ∈ cs, permitted .hashed .noEmptySubset c) {i : Nat} {t : Trie CellId}
    (hi : (Kind.hashed.runC P kec cs).1.hs[i]? = some t) :
    TrieKind.cacheGet t.ann (Kind.hashed.runC P kec cs).1.state = none := by
  obtain ⟨h1, -, -⟩ := Tidy.runC (P := P) (kec := kec) cs (s := Kind.hashed.start) (M := .noEmptySubset) .start .start
    fun c hc => ⟨hcs c hc, hp c hc, fun s => by cases c <;> first | trivial | exact fun _ h => nomatch h⟩
  obtain ⟨w, p, Z, g1, g2⟩ := h1.inv.ex
  obtain ⟨f, k1, k2⟩ := g1.handle hi
  exact k2.symm.trans (g2 rfl f)

/-! ## Examples -/

/-- A trie with three branches of 16 long values each. -/
def costProg : List Cmd :=
  [.fromIter ((List.range 48).map fun n : Nat =>
    ([Fin.ofNat 16 (n / 16), Fin.ofNat 16 n], .val (List.replicate 40 n.toUInt8)))]

/-- Later calls: another trie is changed, and one value of this one. -/
def costMore : List Cmd :=
  [.clone 0, .insert 1 [5, 5] (.val [1]), .insert 0 [1, 3] (.val [1]), .get 0 [1, 2]]

/-- The conditions of `C60_again`, `C60_clone` and `C60_computed`. -/
example : (∀ c ∈ costProg, c.Short ∧ permitted .hashed .noEmptySubset c) ∧ (∀ c ∈ costMore, c.Short) ∧
    (costMore.map (Cmd.work 0)).sum = 5 := by
  refine ⟨?_, ?_, by decide⟩
  · simp only [costProg, List.forall_mem_cons, Cmd.Short, permitted, List.forall_mem_map]
    simp
  · simp [costMore, Cmd.Short]

/-- What is looked at: first all 65 nodes, then the root and its children, after the change also the
children of the branch that was changed, and for the clone again the root and its children.  Without the
first `hash()` it is all of them.  (`hash()` does not fill the cell of the root itself, so it looks at
the children of the root every time.) -/
example : ∀ P : Profile, ((Kind.hashed.runC P kec0 costProg).1.hashReads P kec0 0,
    (Kind.hashed.runC P kec0 (costProg ++ [.hash 0])).1.hashReads P kec0 0,
    (Kind.hashed.runC P kec0 (costProg ++ .hash 0 :: costMore)).1.hashReads P kec0 0,
    (Kind.hashed.runC P kec0 (costProg ++ .hash 0 :: costMore)).1.hashReads P kec0 1,
    (Kind.hashed.runC P kec0 (costProg ++ costMore)).1.hashReads P kec0 0) = (65, 17, 33, 17, 65) := by
  intro ⟨P⟩; cases P <;> decide +kernel

/-- `C60_cached`: a subset for no keys fills the cell of the root. -/
example : ∀ P : Profile, (Kind.hashed.runC P kec0 (costProg ++ [.subset 0 []])).1.hashReads P kec0 0 = 1 := by
  intro ⟨P⟩; cases P <;> decide +kernel

end EthTrie
