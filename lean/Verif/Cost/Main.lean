import Verif.Cost.Ops
import Verif.Props.Panics

/-!
# Every call makes few nodes cold
-/

namespace EthTrie

open Nibbles

/-- The nodes below the roots have cells of their own, and the cells of roots are of no such node. -/
def Tidy (s : Sys CellId Heap) : Prop := ∃ o, OwnOK s.state o ∧ ∀ t ∈ s.hs, RootOK s.state o t

/-- How much a call changes a handle: the number of nodes below the root that it can make. -/
def Cmd.work (i : Nat) : Cmd → Nat
  | .insert j k _ => if j = i then k.length + 3 else 0
  | .extend j xs => if j = i then (xs.map fun x => x.1.length + 3).sum else 0
  | .delete j k => if j = i then 2 * k.length + 3 else 0
  | _ => 0

theorem Trie.XOK_of_plain : ∀ {t : Trie CellId}, t.plain.ExtOK → t.XOK := by
  intro t
  induction t with
  | branch a cs v ih => exact fun h i => ih i (h i)
  | ext a n c ih =>
    intro h
    refine ⟨?_, ?_, ih h.2.2⟩
    · intro e
      apply h.1
      show n.toList = []
      exact List.length_eq_zero_iff.1 (by rw [toList_length, e])
    · have := h.2.1
      cases c <;> first | trivial | exact this.elim
  | _ => exact fun _ => trivial

theorem count_ofList (k : Key) : (ofList k).count = k.length := rfl

theorem keysWork_pack (xs : List (Key × ValOrHash)) :
    keysWork (packEntries xs) = (xs.map fun x => x.1.length + 3).sum := by
  unfold keysWork packEntries
  rw [List.map_map]
  rfl

/-- What is known after a call. -/
def After (s : Sys CellId Heap) (c : Cmd) (s' : Sys CellId Heap) : Prop :=
  Tidy s' ∧ ∀ i t, s.hs[i]? = some t → ∃ t', s'.hs[i]? = some t' ∧
    t'.coldN s'.state ≤ t.coldN s.state + c.work i

variable {P : Profile} {kec : Bytes → H256} {s : Sys CellId Heap} {o : Owner} {σ : Heap} {o' : Owner}
  {c : Cmd}

theorem After.same (h : Tidy s) : After s c s :=
  ⟨h, fun _ t ht => ⟨t, ht, Nat.le_add_right _ _⟩⟩

theorem After.push (ho : OwnOK s.state o) (hs : ∀ t ∈ s.hs, RootOK s.state o t) (hl : OwnLe s.state o σ o')
    (ho' : OwnOK σ o') {ts : List (Trie CellId)} (ht : ∀ t ∈ ts, RootOK σ o' t) :
    After s c ⟨σ, s.hs ++ ts⟩ := by
  refine ⟨⟨o', ho', fun t h => ?_⟩, fun i t hi => ⟨t, ?_, ?_⟩⟩
  · rcases List.mem_append.1 h with h | h
    · exact (hs t h).le hl
    · exact ht t h
  · exact (List.getElem?_append_left (List.getElem?_eq_some_iff.1 hi).1).trans hi
  · have := Trie.coldN_mono hl ho (hs t (List.mem_of_getElem? hi)).kids
    show t.coldN σ ≤ _
    omega

theorem After.state (ho : OwnOK s.state o) (hs : ∀ t ∈ s.hs, RootOK s.state o t)
    (hl : OwnLe s.state o σ o') (ho' : OwnOK σ o') : After s c ⟨σ, s.hs⟩ := by
  have := After.push (c := c) ho hs hl ho' (ts := []) fun _ h => by cases h
  rwa [List.append_nil] at this

theorem After.set (ho : OwnOK s.state o) (hs : ∀ t ∈ s.hs, RootOK s.state o t)
    (hl : OwnLe s.state o σ o') (ho' : OwnOK σ o') {i : Nat} {t u : Trie CellId} (hi : s.hs[i]? = some t)
    (hu : RootOK σ o' u) (hb : u.coldN σ ≤ t.coldN s.state + c.work i) :
    After s c ⟨σ, s.hs.set i u⟩ := by
  refine ⟨⟨o', ho', fun t h => ?_⟩, fun j v hj => ?_⟩
  · rcases List.mem_or_eq_of_mem_set h with h | rfl
    · exact (hs t h).le hl
    · exact hu
  · by_cases e : i = j
    · subst e
      rw [hi] at hj
      cases hj
      exact ⟨u, List.getElem?_set_self (List.getElem?_eq_some_iff.1 hi).1, hb⟩
    · refine ⟨v, by rw [List.getElem?_set_ne e]; exact hj, ?_⟩
      have := Trie.coldN_mono hl ho (hs v (List.mem_of_getElem? hj)).kids
      show v.coldN σ ≤ _
      omega

/-- One call. -/
theorem After.execC {M : Mode} (h : Live .hashed M P kec s) (ht : Tidy s) (c : Cmd) :
    After s c (s.execC P kec c).1 := by
  obtain ⟨o, ho, hs⟩ := ht
  have hx : ∀ t ∈ s.hs, t.XOK := fun t ht => Trie.XOK_of_plain (h.shape ht).2
  have none : ∀ {i : Nat} {f : Trie CellId → R (Sys CellId Heap × Obs)}, s.hs[i]? = .none →
      s.on i f = .ok (s, .noHandle) := by
    intro i f hi
    unfold Sys.on
    rw [hi]
  have some : ∀ {i : Nat} {t : Trie CellId} {f : Trie CellId → R (Sys CellId Heap × Obs)},
      s.hs[i]? = .some t → s.on i f = f t := fun hi => exec_on (K := .hashed) hi
  have someS : ∀ {i : Nat} {t : Trie CellId} {f : Trie CellId → Sys CellId Heap},
      s.hs[i]? = .some t → s.onS i f = f t := by
    intro i t f hi
    unfold Sys.onS
    rw [hi]
  have same : After s c s := .same ⟨o, ho, hs⟩
  cases c with
  | new =>
    obtain ⟨o1, k1, k2, k3⟩ := (tri_newEmpty true ho).run ho rfl
    exact .push ho hs k1 k2 fun t h => by cases List.mem_singleton.1 h; exact k3.1
  | fromIter xs =>
    have hT := tri_fromIter (P := P) ho (packEntries xs)
    unfold Sys.execC
    simp only [Sys.exec]
    cases hr : (EthTrie.fromIter P (packEntries xs) : Prog CellId (Trie CellId)).run s.state with
    | error e =>
      obtain ⟨o1, k1, k2⟩ := hT.stop ho
      exact .state ho hs k1 k2
    | ok r =>
      obtain ⟨o1, k1, k2, k3⟩ := hT.run ho hr
      exact .push ho hs k1 k2 fun t h => by cases List.mem_singleton.1 h; exact k3
  | clone i =>
    unfold Sys.execC
    simp only [Sys.exec]
    cases hi : s.hs[i]? with
    | none => rw [none hi]; exact same
    | some t =>
      rw [some hi]
      exact .push ho hs (.refl _ _) ho fun u h => by
        cases List.mem_singleton.1 h; exact hs t (List.mem_of_getElem? hi)
  | insert i k v =>
    unfold Sys.execC
    simp only [Sys.exec, Sys.afterPanic]
    cases hi : s.hs[i]? with
    | none => rw [none hi]; exact same
    | some t =>
      rw [some hi, someS hi]
      have hm := List.mem_of_getElem? hi
      have hT := tri_insert (P := P) ho (hs t hm) (hx t hm) (ofList k) v
      cases hr : (t.insert P (ofList k) v).run s.state with
      | error e =>
        obtain ⟨o1, k1, k2⟩ := hT.stop ho
        exact .state ho hs k1 k2
      | ok r =>
        obtain ⟨o1, k1, k2, k3, k4⟩ := hT.run ho hr
        refine .set ho hs k1 k2 hi k3 ?_
        simp only [Cmd.work, if_pos]
        exact k4
  | extend i xs =>
    unfold Sys.execC
    simp only [Sys.exec, Sys.afterPanic]
    cases hi : s.hs[i]? with
    | none => rw [none hi]; exact same
    | some t =>
      rw [some hi, someS hi]
      have hm := List.mem_of_getElem? hi
      have hT := tri_extend (P := P) ho (hs t hm) (hx t hm) (packEntries xs)
      cases hr : (t.extend P (packEntries xs)).run s.state with
      | error e =>
        obtain ⟨o1, k1, k2, k3, k4⟩ := own_extendUntil (P := P) (packEntries xs) ho (hs t hm) (hx t hm)
        refine .set ho hs k1 k2 hi k3 ?_
        simp only [Cmd.work, if_pos]
        rw [keysWork_pack] at k4
        exact k4
      | ok r =>
        obtain ⟨o1, k1, k2, k3, k4⟩ := hT.run ho hr
        refine .set ho hs k1 k2 hi k3 ?_
        simp only [Cmd.work, if_pos]
        rw [keysWork_pack] at k4
        exact k4
  | delete i k =>
    unfold Sys.execC
    simp only [Sys.exec, Sys.afterPanic]
    cases hi : s.hs[i]? with
    | none => rw [none hi]; exact same
    | some t =>
      rw [some hi, someS hi]
      have hm := List.mem_of_getElem? hi
      have hT := tri_delete (P := P) ho (hs t hm) (hx t hm) (ofList k)
      cases hr : (t.delete P (ofList k)).run s.state with
      | error e =>
        obtain ⟨o1, k1, k2⟩ := hT.stop ho
        exact .state ho hs k1 k2
      | ok r =>
        obtain ⟨⟨t', x⟩, σ'⟩ := r
        obtain ⟨o1, k1, k2, k3, k4⟩ := hT.run ho hr
        refine .set ho hs k1 k2 hi k3 ?_
        simp only [Cmd.work, if_pos]
        exact k4
  | get i k =>
    unfold Sys.execC
    simp only [Sys.exec, Sys.afterPanic]
    cases hi : s.hs[i]? with
    | none => rw [none hi]; exact same
    | some t => rw [some hi]; cases t.get P (ofList k) <;> exact same
  | items i =>
    unfold Sys.execC
    simp only [Sys.exec, Sys.afterPanic]
    cases hi : s.hs[i]? with
    | none => rw [none hi]; exact same
    | some t => rw [some hi]; cases t.items P <;> exact same
  | eq i j =>
    unfold Sys.execC
    simp only [Sys.exec, Sys.afterPanic]
    cases hi : s.hs[i]? with
    | none => rw [none hi]; exact same
    | some t =>
      rw [some hi]
      cases hj : s.hs[j]? with
      | none => rw [none hj]; exact same
      | some u => rw [some hj]; exact same
  | hash i =>
    unfold Sys.execC
    simp only [Sys.exec, Sys.afterPanic]
    cases hi : s.hs[i]? with
    | none => rw [none hi]; exact same
    | some t =>
      rw [some hi, someS hi]
      have hm := List.mem_of_getElem? hi
      have hT := tri_rootHash (P := P) (kec := kec) ho (hs t hm)
      cases hr : (t.rootHash P kec).run s.state with
      | error e =>
        obtain ⟨o1, k1, k2⟩ := hT.stop ho
        exact .state ho hs k1 k2
      | ok r =>
        obtain ⟨o1, k1, k2, k3⟩ := hT.run ho hr
        exact .state ho hs k1 k2
  | subset i ks =>
    unfold Sys.execC
    simp only [Sys.exec, Sys.afterPanic]
    cases hi : s.hs[i]? with
    | none => rw [none hi]; exact same
    | some t =>
      rw [some hi, someS hi]
      have hm := List.mem_of_getElem? hi
      have hT := tri_subset (P := P) (kec := kec) ho (hs t hm) (ks.map ofList)
      cases hr : (createTrieSubset P kec t (ks.map ofList)).run s.state with
      | error e =>
        obtain ⟨o1, k1, k2⟩ := hT.stop ho
        exact .state ho hs k1 k2
      | ok r =>
        obtain ⟨x, σ'⟩ := r
        obtain ⟨o1, k1, k2, k3⟩ := hT.run ho hr
        cases x with
        | error e => exact .state ho hs k1 k2
        | ok u => exact .push ho hs k1 k2 fun t h => by cases List.mem_singleton.1 h; exact k3 _ rfl
  | subsets i kss =>
    unfold Sys.execC
    simp only [Sys.exec, Sys.afterPanic]
    cases hi : s.hs[i]? with
    | none => rw [none hi]; exact same
    | some t =>
      rw [some hi, someS hi]
      have hm := List.mem_of_getElem? hi
      have hT := tri_subsets (P := P) (kec := kec) ho (hs t hm) (kss.map fun ks => ks.map ofList)
      cases hr : (createTrieSubsets P kec t (kss.map fun ks => ks.map ofList)).run s.state with
      | error e =>
        obtain ⟨o1, k1, k2⟩ := hT.stop ho
        exact .state ho hs k1 k2
      | ok r =>
        obtain ⟨x, σ'⟩ := r
        obtain ⟨o1, k1, k2, k3⟩ := hT.run ho hr
        cases x with
        | error e => exact .state ho hs k1 k2
        | ok ts => exact .push ho hs k1 k2 (k3 _ rfl)

end EthTrie
