import Verif.Cost.Alloc
import Verif.Cost.Main
import Mathlib.Data.List.Perm.Subperm
import Mathlib.Data.List.Nodup
import Verif.Props.Cost

/-!
# Property C61: changes copy only the path

Tries share their nodes: a clone costs nothing, and a change makes new nodes along the path of its key
and takes over all others.  The theorems about contents and hashes say nothing about this: a trie that is
copied as a whole at each change has the same contents.
-/

namespace EthTrie

open Nibbles

variable {P : Profile} {kec : Bytes → H256}

/-- The number of nodes that a call may make, given the sizes of the tries.  Only subsets depend on
them (for these see C62). -/
def Cmd.made (size : Nat → Nat) : Cmd → Nat
  | .new => 1
  | .fromIter xs => 1 + (xs.map fun x => x.1.length + 21).sum
  | .insert _ k _ => k.length + 21
  | .extend _ xs => (xs.map fun x => x.1.length + 21).sum
  | .delete _ k => 2 * k.length + 3
  | .subset i _ => size i
  | .subsets i kss => kss.length * size i
  | .clone _ | .get _ _ | .hash _ | .items _ | .eq _ _ => 0

/-- The number of nodes of a trie of the program. -/
def Sys.size {α S : Type} (s : Sys α S) (i : Nat) : Nat :=
  match s.hs[i]? with
  | none => 0
  | some t => t.nodeCount

theorem Trie.XOK_of_shape {α : Type} : ∀ {t : Trie α}, t.plain.ExtOK → t.XOK := by
  intro t
  induction t with
  | branch a cs v ih => exact fun h i => ih i (h i)
  | ext a n c ih =>
    intro h
    refine ⟨?_, ?_, ih h.2.2⟩
    · intro e
      exact h.1 (List.length_eq_zero_iff.1 (by rw [toList_length]; exact e))
    · have := h.2.1
      cases c <;> first | trivial | exact this.elim
  | _ => exact fun _ => trivial

/-- C61: in any state, a call (whether it returns or panics) makes at most so many nodes. -/
theorem C61_made {K : Kind} {M : Mode} {s : Sys K.Ann K.State} (h : Live K M P kec s) (c : Cmd) :
    s.newNodes P kec c ≤ c.made s.size := by
  have hx : ∀ (i : Nat) (t : Trie K.Ann), s.hs[i]? = some t → t.XOK := fun i t hi =>
    Trie.XOK_of_shape (h.shape (List.mem_of_getElem? hi)).2
  have pe : ∀ xs : List (Key × ValOrHash),
      ((packEntries xs).map fun x => x.1.count + 21) = xs.map fun x => x.1.length + 21 := by
    intro xs
    simp only [packEntries, List.map_map]
    rfl
  cases c with
  | new => exact Allocs.allocs (made_one fun _ => trivial : Allocs (newEmpty : Prog K.Ann _) 1 fun _ => True) _
  | fromIter xs =>
    have := (made_fromIter (P := P) (α := K.Ann) (packEntries xs)).allocs s.state
    rw [pe] at this
    exact this
  | insert i k v =>
    unfold Sys.newNodes
    simp only
    split
    · exact Nat.zero_le _
    · exact (made_insert (hx i _ ‹_›) _ _).allocs _
  | extend i xs =>
    unfold Sys.newNodes
    simp only
    split
    · exact Nat.zero_le _
    · have := (made_extend (P := P) (hx i _ ‹_›) (packEntries xs)).allocs s.state
      rw [pe] at this
      exact this
  | delete i k =>
    unfold Sys.newNodes
    simp only
    split
    · exact Nat.zero_le _
    · exact (made_delete (hx i _ ‹_›) _).allocs _
  | hash i =>
    unfold Sys.newNodes
    simp only
    split
    · exact Nat.zero_le _
    · exact (made_rootHash _).allocs _
  | subset i ks =>
    unfold Sys.newNodes Cmd.made Sys.size
    simp only
    split
    · exact Nat.zero_le _
    · rename_i t hi
      rw [hi]
      exact (made_subset _ _).allocs _
  | subsets i kss =>
    unfold Sys.newNodes Cmd.made Sys.size
    simp only
    split
    · exact Nat.zero_le _
    · rename_i t hi
      rw [hi]
      have := (made_subsetsFrom (P := P) (kec := kec) (kss.map fun ks => ks.map ofList) (Tracked.new t)).allocs s.state
      rw [nodeCount_new, List.length_map] at this
      exact this
  | _ => exact Nat.zero_le _

/-! ## The number of nodes in memory -/

theorem Prog.next_stop {β : Type} (p : Prog CellId β) (s : Heap) : (p.stop s).next = s.next + p.allocs s := by
  induction p generalizing s with
  | ret b => rfl
  | panic e => rfl
  | alloc k ih =>
    simp only [Prog.stop, Prog.allocs, ih]
    show s.next + 1 + _ = _
    omega
  | read a k ih => exact ih _ s
  | write a v k ih => exact ih _

theorem Prog.next_run {β : Type} {p : Prog CellId β} {s s' : Heap} {b : β} (h : p.run s = .ok (b, s')) :
    s'.next = s.next + p.allocs s := by
  rw [← Prog.next_stop, Prog.stop_of_run h]

theorem Prog.allocs_bind {α β γ S : Type} [K : TrieKind α S] (p : Prog α β) (f : β → Prog α γ) (s : S) :
    (p >>= f).allocs s = p.allocs s + match p.run s with
      | .ok (b, s') => (f b).allocs s'
      | .error _ => 0 := by
  show (p.bind f).allocs s = _
  induction p generalizing s with
  | ret b => simp only [Prog.bind, Prog.allocs, Prog.run, Nat.zero_add]
  | panic e => rfl
  | alloc k ih => simp only [Prog.bind, Prog.allocs, Prog.run, ih]; omega
  | read a k ih => exact ih _ s
  | write a v k ih => exact ih _

theorem next_extendUntil : ∀ (xs : List (Nibbles × ValOrHash)) (t : Trie CellId) (s : Heap),
    (extendUntil P t xs s).2.next = s.next + (trieExtend P t xs).allocs s
  | [], t, s => rfl
  | (k, v) :: xs, t, s => by
    unfold extendUntil trieExtend
    rw [Prog.allocs_bind]
    cases hr : (trieInsert P t k v).run s with
    | error e => exact Prog.next_stop _ _
    | ok r =>
      obtain ⟨u, s1⟩ := r
      simp only
      rw [next_extendUntil xs u s1, Prog.next_run hr]
      omega

theorem allocs_extend (t : Trie CellId) (xs : List (Nibbles × ValOrHash)) (s : Heap) :
    (t.extend P xs).allocs s = (trieExtend P t xs).allocs s := by
  unfold Trie.extend
  rw [Prog.allocs_bind]
  cases (trieExtend P t xs).run s <;> rfl

/-- C61: the count is right.  Each new node of a `HashedPartialTrie` has a new cell; so many cells are
added by the call, whether it returns or panics. -/
theorem C61_counted (s : Sys CellId Heap) (c : Cmd) :
    (s.execC P kec c).1.state.next = s.state.next + s.newNodes P kec c := by
  have none : ∀ {i : Nat} {f : Trie CellId → R (Sys CellId Heap × Obs)}, s.hs[i]? = .none →
      s.on i f = .ok (s, .noHandle) := by
    intro i f hi
    unfold Sys.on
    rw [hi]
  have some : ∀ {i : Nat} {t : Trie CellId} {f : Trie CellId → R (Sys CellId Heap × Obs)},
      s.hs[i]? = .some t → s.on i f = f t := fun hi => exec_on (K := .hashed) hi
  have someS : ∀ {i : Nat} {t : Trie CellId} {f : Trie CellId → Sys CellId Heap},
      s.hs[i]? = .some t → s.onS i f = f t := by
    intro i t f hi
    unfold Sys.onS
    rw [hi]
  unfold Sys.execC Sys.newNodes
  cases c with
  | new => rfl
  | fromIter xs =>
    simp only [Sys.exec, Sys.afterPanic]
    cases hr : (EthTrie.fromIter P (packEntries xs) : Prog CellId (Trie CellId)).run s.state with
    | error e => exact Prog.next_stop _ _
    | ok r => exact Prog.next_run hr
  | clone i =>
    simp only [Sys.exec, Sys.afterPanic]
    cases hi : s.hs[i]? with
    | none => rw [none hi]; rfl
    | some t => rw [some hi]; rfl
  | get i k =>
    simp only [Sys.exec, Sys.afterPanic]
    cases hi : s.hs[i]? with
    | none => rw [none hi]; rfl
    | some t => rw [some hi]; cases t.get P (ofList k) <;> rfl
  | items i =>
    simp only [Sys.exec, Sys.afterPanic]
    cases hi : s.hs[i]? with
    | none => rw [none hi]; rfl
    | some t => rw [some hi]; cases t.items P <;> rfl
  | eq i j =>
    simp only [Sys.exec, Sys.afterPanic]
    cases hi : s.hs[i]? with
    | none => rw [none hi]; rfl
    | some t =>
      rw [some hi]
      cases hj : s.hs[j]? with
      | none => rw [none hj]; rfl
      | some u => rw [some hj]; rfl
  | insert i k v =>
    simp only [Sys.exec, Sys.afterPanic]
    cases hi : s.hs[i]? with
    | none => rw [none hi]; rfl
    | some t =>
      rw [some hi, someS hi]
      cases hr : (t.insert P (ofList k) v).run s.state with
      | error e =>
        exact Prog.next_stop _ _
      | ok r =>
        exact Prog.next_run hr
  | extend i xs =>
    simp only [Sys.exec, Sys.afterPanic]
    cases hi : s.hs[i]? with
    | none => rw [none hi]; rfl
    | some t =>
      rw [some hi, someS hi]
      cases hr : (t.extend P (packEntries xs)).run s.state with
      | error e =>
        exact (next_extendUntil _ _ _).trans (congrArg (s.state.next + ·) (allocs_extend t _ _).symm)
      | ok r =>
        exact Prog.next_run hr
  | delete i k =>
    simp only [Sys.exec, Sys.afterPanic]
    cases hi : s.hs[i]? with
    | none => rw [none hi]; rfl
    | some t =>
      rw [some hi, someS hi]
      cases hr : (t.delete P (ofList k)).run s.state with
      | error e =>
        exact Prog.next_stop _ _
      | ok r =>
        exact Prog.next_run hr
  | hash i =>
    simp only [Sys.exec, Sys.afterPanic]
    cases hi : s.hs[i]? with
    | none => rw [none hi]; rfl
    | some t =>
      rw [some hi, someS hi]
      cases hr : (t.rootHash P kec).run s.state with
      | error e =>
        exact Prog.next_stop _ _
      | ok r =>
        exact Prog.next_run hr
  | subset i ks =>
    simp only [Sys.exec, Sys.afterPanic]
    cases hi : s.hs[i]? with
    | none => rw [none hi]; rfl
    | some t =>
      rw [some hi, someS hi]
      cases hr : (createTrieSubset P kec t (ks.map ofList)).run s.state with
      | error e =>
        exact Prog.next_stop _ _
      | ok r =>
        obtain ⟨r, s1⟩ := r
        cases r <;> exact Prog.next_run hr
  | subsets i kss =>
    simp only [Sys.exec, Sys.afterPanic]
    cases hi : s.hs[i]? with
    | none => rw [none hi]; rfl
    | some t =>
      rw [some hi, someS hi]
      cases hr : (createTrieSubsets P kec t (kss.map fun ks => ks.map ofList)).run s.state with
      | error e =>
        exact Prog.next_stop _ _
      | ok r =>
        obtain ⟨r, s1⟩ := r
        cases r <;> exact Prog.next_run hr

/-- The nodes below a node. -/
def Trie.inner {α : Type} : Trie α → List (Trie α)
  | .branch _ cs _ => (List.finRange 16).flatMap fun i => cs i :: (cs i).inner
  | .ext _ _ c => c :: c.inner
  | _ => []

theorem Owned.inner {s : Heap} {o : Owner} (ho : OwnOK s o) : ∀ {t : Trie CellId}, KidsOwned o t →
    ∀ u ∈ t.inner, Owned o u := by
  intro t
  induction t with
  | branch a cs v ih =>
    intro hk u hu
    obtain ⟨i, -, hu⟩ := List.mem_flatMap.1 hu
    have hc : Owned o (cs i) := hk _ (List.mem_map.2 ⟨i, List.mem_finRange i, rfl⟩)
    rcases List.mem_cons.1 hu with rfl | hu
    · exact hc
    · exact ih i (ho.kids hc) u hu
  | ext a n c ih =>
    intro hk u hu
    have hc : Owned o c := hk _ (List.mem_singleton.2 rfl)
    rcases List.mem_cons.1 hu with rfl | hu
    · exact hc
    · exact ih (ho.kids hc) u hu
  | _ => exact fun _ u hu => nomatch hu

theorem next_runC {M : Mode} : ∀ (cs : List Cmd) {s : Sys CellId Heap}, Live .hashed M P kec s →
    (∀ c ∈ cs, c.Short ∧ permitted .hashed M c ∧
      ∀ s : Sys Kind.hashed.Ann Kind.hashed.State, s.Catchable .hashed M c) →
    (∀ c ∈ cs, ∀ i ks, c ≠ .subset i ks) → (∀ c ∈ cs, ∀ i kss, c ≠ .subsets i kss) →
    (s.runC P kec cs).1.state.next ≤ s.state.next + (cs.map (Cmd.made fun _ => 0)).sum
  | [], s, _, _, _, _ => Nat.le_refl _
  | c :: cs, s, hl, h, n1, n2 => by
    obtain ⟨h1, h2, h3⟩ := h c (by simp)
    have := next_runC cs (hl.execC h1 h2 (h3 s)) (fun c hc => h c (by simp [hc]))
      (fun c hc => n1 c (by simp [hc])) fun c hc => n2 c (by simp [hc])
    have e := C61_counted (P := P) (kec := kec) s c
    have le : s.newNodes P kec c ≤ c.made s.size := C61_made hl c
    have : c.made s.size = c.made fun _ => 0 := by
      cases c with
      | subset i ks => exact absurd rfl (n1 _ (by simp) i ks)
      | subsets i kss => exact absurd rfl (n2 _ (by simp) i kss)
      | _ => rfl
    simp only [List.map_cons, List.sum_cons]
    show (((s.execC P kec c).1.runC P kec cs).1).state.next ≤ _
    have e' : ((s.execC P kec c).1.runC P kec cs).1.state.next ≤ (s.execC P kec c).1.state.next + _ := ‹_›
    omega

/-- C61, memory: after any calls except subsets, all tries together have at most so many different nodes
(besides their roots), however many tries there are and however many times they were cloned. -/
theorem C61_memory (cs : List Cmd) (hcs : ∀ c ∈ cs, c.Short) (h1 : ∀ c ∈ cs, ∀ i ks, c ≠ .subset i ks)
    (h2 : ∀ c ∈ cs, ∀ i kss, c ≠ .subsets i kss) (us : List (Trie CellId)) (hd : us.Nodup)
    (hu : ∀ u ∈ us, ∃ t ∈ (Kind.hashed.runC P kec cs).1.hs, u ∈ t.inner) :
    us.length ≤ (cs.map (Cmd.made fun _ => 0)).sum := by
  obtain ⟨-, ⟨o, ho, hs⟩, -⟩ := Tidy.runC (P := P) (kec := kec) cs (s := Kind.hashed.start) (M := .any) .start .start (short_any hcs)
  have hn := next_runC (P := P) (kec := kec) cs (s := Kind.hashed.start) (M := .any) .start (short_any hcs) h1 h2
  have hn : (Kind.hashed.start.runC P kec cs).1.state.next ≤ (cs.map (Cmd.made fun _ => 0)).sum := by
    have z : (Kind.hashed.start.state : Heap).next = 0 := rfl
    rw [z, Nat.zero_add] at hn
    exact hn
  have how : ∀ u ∈ us, Owned o u := by
    intro u h
    obtain ⟨t, ht, hb⟩ := hu u h
    exact Owned.inner ho (hs t ht).kids u hb
  have hm : (us.map fun u => u.ann.id).Nodup := by
    refine hd.map_on fun u h v h' e => ?_
    have a := how u h
    have b := how v h'
    unfold Owned at a b
    rw [e, b] at a
    exact (Option.some.inj a).symm
  have hsub : (us.map fun u => u.ann.id) ⊆ List.range (cs.map (Cmd.made fun _ => 0)).sum := by
    intro n h
    obtain ⟨u, hu, rfl⟩ := List.mem_map.1 h
    exact List.mem_range.2 (Nat.lt_of_lt_of_le (ho.lt (how u hu)) hn)
  have := (hm.subperm hsub).length_le
  rwa [List.length_map, List.length_range] at this

/-! ## Examples -/

/-- Calls in a state with a trie of 65 nodes and two clones of it. -/
def allocCalls : List Cmd :=
  [.clone 0, .insert 0 [1, 3] (.val [1]), .insert 1 [1, 3, 5] (.val [7]), .insert 0 [5, 5] (.val [1]),
    .delete 0 [1, 3], .delete 0 [9], .hash 0, .get 0 [1, 2], .subset 0 [[1, 2]],
    .extend 0 [([1, 2], .val [1]), ([1, 2, 3], .val [1])]]

/-- What they make and what they may make.  Replacing a value makes 3 nodes of 65; a new branch has 15
empty children. -/
example : ∀ (K : Kind) (P : Profile),
    (let s := (K.runC P kec0 (costProg ++ [.clone 0, .clone 0])).1
     (s.hs.map Trie.nodeCount, allocCalls.map fun c => (s.newNodes P kec0 c, c.made s.size))) =
    ([65, 65, 65],
      [(0, 0), (3, 23), (21, 24), (2, 23), (3, 7), (0, 5), (0, 0), (0, 0), (33, 65), (24, 47)]) := by
  intro K ⟨P⟩; cases K <;> cases P <;> decide +kernel

/-- The conditions of `C61_memory`: three tries with 64 nodes below their roots, that may be at most 1105
different ones together. -/
example : (∀ c ∈ costProg ++ [(.clone 0 : Cmd), .clone 0], c.Short ∧ (∀ i ks, c ≠ .subset i ks) ∧
    ∀ i kss, c ≠ .subsets i kss) ∧
    ((costProg ++ [(.clone 0 : Cmd), .clone 0]).map (Cmd.made fun _ => 0)).sum = 1105 ∧
    ∀ P : Profile, (Kind.hashed.runC P kec0 (costProg ++ [(.clone 0 : Cmd), .clone 0])).1.hs.map
      (fun t => t.inner.length) = [64, 64, 64] := by
  refine ⟨?_, by decide, ?_⟩
  · simp only [costProg, List.cons_append, List.nil_append, List.forall_mem_cons, Cmd.Short, List.forall_mem_map]
    simp
  · intro ⟨P⟩; cases P <;> decide +kernel

end EthTrie
