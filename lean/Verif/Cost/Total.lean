import Verif.Cost.HashModel
import Verif.Cost.Main
import Verif.Props.Cost
import Verif.Props.Alloc

/-!
# The hashing work of a whole program

Each call of Keccak for a node below the roots fills an empty cell, and a cell is empty only once after
it was made or emptied.  So the number of empty cells pays for the calls.
-/

namespace EthTrie

open Nibbles

variable {P : Profile} {kec : Bytes → H256}

/-! ## Counts of programs -/

section
variable {α β γ S : Type} [K : TrieKind α S]

/-- The number of hashes that a program stores in cells until it returns or panics. -/
def Prog.stored : Prog α β → S → Nat
  | .ret _, _ => 0
  | .panic _, _ => 0
  | .alloc k, s => (k (K.alloc s).1).stored (K.alloc s).2
  | .read a k, s => (k (K.cacheGet a s)).stored s
  | .write a v k, s => (if v = none then 0 else 1) + k.stored (K.cacheSet a v s)

theorem Prog.stored_bind (p : Prog α β) (f : β → Prog α γ) (s : S) :
    (p.bind f).stored s = p.stored s + match p.run s with
      | .ok (b, s') => (f b).stored s'
      | .error _ => 0 := by
  induction p generalizing s with
  | ret b => simp only [Prog.bind, Prog.stored, Prog.run, Nat.zero_add]
  | panic e => rfl
  | alloc k ih => exact ih _ _
  | read a k ih => exact ih _ s
  | write a v k ih => simp only [Prog.bind, Prog.stored, Prog.run, ih]; omega

theorem Prog.stored_seq {ι : Type} (p : ι → Prog α β) : ∀ (l : List ι) (s : S),
    (Prog.seq (l.map p)).stored s = Prog.along p (fun i s => (p i).stored s) l s
  | [], s => rfl
  | i :: l, s => by
    simp only [List.map_cons, Prog.seq, Prog.along]
    rw [Prog.stored_bind]
    cases hr : (p i).run s with
    | error e => rfl
    | ok r =>
      obtain ⟨b, s'⟩ := r
      simp only
      rw [Prog.stored_bind, Prog.stored_seq p l s']
      cases (Prog.seq (l.map p)).run s' <;> rfl

theorem Prog.along_le {ι : Type} {p : ι → Prog α β} {f g : ι → S → Nat} : ∀ {l : List ι},
    (∀ i ∈ l, ∀ s, f i s ≤ g i s) → ∀ s : S, Prog.along p f l s ≤ Prog.along p g l s
  | [], _, s => Nat.le_refl _
  | i :: l, h, s => by
    simp only [Prog.along]
    refine Nat.add_le_add (h i (by simp) s) ?_
    split
    · exact Prog.along_le (fun j hj => h j (by simp [hj])) _
    · exact Nat.le_refl _

end

/-- The number of writes, until a program returns or panics, that do not fill an empty cell. -/
def Prog.over {β : Type} : Prog CellId β → Heap → Nat
  | .ret _, _ => 0
  | .panic _, _ => 0
  | .alloc k, s => (k (TrieKind.alloc s).1).over (TrieKind.alloc (α := CellId) s).2
  | .read a k, s => (k (TrieKind.cacheGet a s)).over s
  | .write a v k, s => (if v ≠ none ∧ a.id < s.next ∧ s.cell a.id = none then 0 else 1) +
      k.over (TrieKind.cacheSet a v s)

section
variable {β γ : Type}

theorem Prog.over_bind (p : Prog CellId β) (f : β → Prog CellId γ) (s : Heap) :
    (p.bind f).over s = p.over s + match p.run s with
      | .ok (b, s') => (f b).over s'
      | .error _ => 0 := by
  induction p generalizing s with
  | ret b => simp only [Prog.bind, Prog.over, Prog.run, Nat.zero_add]
  | panic e => rfl
  | alloc k ih => exact ih _ _
  | read a k ih => exact ih _ s
  | write a v k ih => simp only [Prog.bind, Prog.over, Prog.run, ih]; omega

theorem Prog.over_zero {p : Prog CellId β} {f : β → Prog CellId γ} {s : Heap} (hp : p.over s = 0)
    (hf : ∀ b s', p.run s = .ok (b, s') → (f b).over s' = 0) : (p >>= f).over s = 0 := by
  show (p.bind f).over s = 0
  rw [Prog.over_bind, hp, Nat.zero_add]
  split
  · exact hf _ _ ‹_›
  · rfl

theorem Prog.over_lift {r : R β} {f : β → Prog CellId γ} {s : Heap}
    (hf : ∀ b, r = .ok b → (f b).over s = 0) : ((Prog.lift r : Prog CellId β) >>= f).over s = 0 := by
  cases r with
  | error e => rfl
  | ok b => exact hf b rfl

theorem Prog.Quiet.over {p : Prog CellId β} (h : p.Quiet) (s : Heap) : p.over s = 0 := by
  induction h generalizing s with
  | ret b => rfl
  | panic e => rfl
  | alloc h ih => exact ih _ _

theorem Prog.Quiet.stored {p : Prog CellId β} (h : p.Quiet) (s : Heap) : p.stored s = 0 := by
  induction h generalizing s with
  | ret b => rfl
  | panic e => rfl
  | alloc h ih => exact ih _ _

end

/-! ## The number of empty cells -/

/-- The number of empty cells. -/
def Heap.empties (s : Heap) : Nat := ((List.range s.next).map fun c => if s.cell c = none then 1 else 0).sum

theorem empties_alloc (s : Heap) : (TrieKind.alloc (α := CellId) s).2.empties = s.empties + 1 := by
  show (((List.range (s.next + 1)).map fun c => if upd s.cell s.next none c = none then 1 else 0).sum : Nat) = _
  rw [List.range_succ, List.map_append, List.sum_append]
  simp only [List.map_cons, List.map_nil, List.sum_cons, List.sum_nil, upd_same, if_true]
  unfold Heap.empties
  congr 2
  refine List.map_congr_left fun c hc => ?_
  rw [upd_other _ _ (Nat.ne_of_lt (List.mem_range.1 hc))]

theorem empties_write (s : Heap) (a : CellId) (v : Option H256) :
    (TrieKind.cacheSet a v s : Heap).empties + (if a.id < s.next then if s.cell a.id = none then 1 else 0 else 0) =
      s.empties + if a.id < s.next then if v = none then 1 else 0 else 0 := by
  have := sum_map_upd (fun v : Option H256 => if v = none then 1 else 0) s.cell a.id v (List.range s.next)
    List.nodup_range
  simp only [List.mem_range] at this
  exact this

/-- The hashes that a program stores are paid with empty cells. -/
theorem Prog.empties_stop {β : Type} (p : Prog CellId β) (s : Heap) :
    (p.stop s).empties + p.stored s ≤ s.empties + p.allocs s + p.over s := by
  induction p generalizing s with
  | ret b => exact Nat.le_refl _
  | panic e => exact Nat.le_refl _
  | alloc k ih =>
    have h := ih (TrieKind.alloc s).1 (TrieKind.alloc (α := CellId) s).2
    rw [empties_alloc] at h
    simp only [Prog.stop, Prog.stored, Prog.allocs, Prog.over]
    omega
  | read a k ih => exact ih _ s
  | write a v k ih =>
    have h := ih (TrieKind.cacheSet a v s)
    have h' := empties_write s a v
    simp only [Prog.stop, Prog.stored, Prog.allocs, Prog.over]
    by_cases hv : v = none
    · rw [if_pos hv, if_neg (fun x => x.1 hv)]
      rw [if_pos hv] at h'
      split at h' <;> omega
    · rw [if_neg hv]
      rw [if_neg hv] at h'
      by_cases h1 : a.id < s.next
      · rw [if_pos h1, if_pos h1] at h'
        by_cases h2 : s.cell a.id = none
        · rw [if_pos h2] at h'
          rw [if_pos ⟨hv, h1, h2⟩]
          omega
        · rw [if_neg fun x => h2 x.2.2]
          omega
      · rw [if_neg h1, if_neg h1] at h'
        rw [if_neg fun x => h1 x.2.1]
        omega

/-! ## Hashing only fills empty cells -/

/-- Cells of no node, and of nodes with at least (or more than) `n` nodes, stay as they are. -/
def KeepsFrom (o : Owner) (n : Nat) (s s' : Heap) : Prop :=
  s'.next = s.next ∧ ∀ c, (∀ u, o c = some u → n ≤ u.nodeCount) → s'.cell c = s.cell c

theorem KeepsFrom.refl (o : Owner) (n : Nat) (s : Heap) : KeepsFrom o n s s := ⟨rfl, fun _ _ => rfl⟩

theorem KeepsFrom.trans {o : Owner} {n : Nat} {s s1 s2 : Heap} (h1 : KeepsFrom o n s s1)
    (h2 : KeepsFrom o n s1 s2) : KeepsFrom o n s s2 :=
  ⟨h2.1.trans h1.1, fun c hc => (h2.2 c hc).trans (h1.2 c hc)⟩

theorem KeepsFrom.mono {o : Owner} {n m : Nat} {s s' : Heap} (h : KeepsFrom o n s s') (le : n ≤ m) :
    KeepsFrom o m s s' :=
  ⟨h.1, fun c hc => h.2 c fun u hu => Nat.le_trans le (hc u hu)⟩

/-- The program fills only empty cells, and only those of nodes with less than `n` nodes. -/
def Pays {β : Type} (o : Owner) (n : Nat) (p : Prog CellId β) (s : Heap) : Prop :=
  p.over s = 0 ∧ ∀ b s', p.run s = .ok (b, s') → KeepsFrom o n s s' ∧ OwnOK s' o

theorem Pays.bind {β γ : Type} {o : Owner} {n : Nat} {p : Prog CellId β} {f : β → Prog CellId γ} {s : Heap}
    (h : Pays o n p s) (hf : ∀ b s', p.run s = .ok (b, s') → OwnOK s' o → Pays o n (f b) s') :
    Pays o n (p.bind f) s := by
  refine ⟨Prog.over_zero h.1 fun b s' hr => (hf b s' hr (h.2 b s' hr).2).1, fun c s' hr => ?_⟩
  replace hr : (p >>= f).run s = .ok (c, s') := hr
  rw [Prog.bind_run] at hr
  cases hp : p.run s with
  | error e => rw [hp] at hr; cases hr
  | ok r =>
    obtain ⟨b, s1⟩ := r
    rw [hp] at hr
    obtain ⟨k1, k2⟩ := h.2 b s1 hp
    obtain ⟨g1, g2⟩ := (hf b s1 hp k2).2 c s' hr
    exact ⟨k1.trans g1, g2⟩

theorem Pays.ret {β : Type} {o : Owner} {n : Nat} {s : Heap} (ho : OwnOK s o) (b : β) :
    Pays o n (.ret b : Prog CellId β) s :=
  ⟨rfl, fun _ _ h => by cases h; exact ⟨.refl _ _ _, ho⟩⟩

theorem Pays.lift {β γ : Type} {o : Owner} {n : Nat} {s : Heap} {r : R β} {f : β → Prog CellId γ}
    (hf : ∀ b, r = .ok b → Pays o n (f b) s) : Pays o n ((Prog.lift r : Prog CellId β).bind f) s := by
  cases r with
  | error e => exact ⟨rfl, fun _ _ h => by cases h⟩
  | ok b => exact hf b rfl

theorem Pays.mono {β : Type} {o : Owner} {n m : Nat} {s : Heap} {p : Prog CellId β} (h : Pays o n p s)
    (le : n ≤ m) : Pays o m p s :=
  ⟨h.1, fun b s' hr => ⟨((h.2 b s' hr).1).mono le, (h.2 b s' hr).2⟩⟩

theorem Pays.seq {β ι : Type} {o : Owner} {n : Nat} {p : ι → Prog CellId β} : ∀ {l : List ι},
    (∀ i ∈ l, ∀ s, OwnOK s o → Pays o n (p i) s) → ∀ {s : Heap}, OwnOK s o →
    Pays o n (Prog.seq (l.map p)) s
  | [], _, s, ho => .ret ho _
  | i :: l, h, s, ho =>
    (h i (by simp) s ho).bind fun _ s1 _ ho1 =>
      (Pays.seq (fun j hj => h j (by simp [hj])) ho1).bind fun _ s2 _ ho2 => .ret ho2 _

theorem nodeCount_kid_lt {α : Type} {t v : Trie α} (h : v ∈ t.kids) : v.nodeCount + 1 ≤ t.nodeCount := by
  rw [t.nodeCount_eq]
  have : v.nodeCount ≤ (t.kids.map Trie.nodeCount).sum := le_sum_of_mem (List.mem_map_of_mem h)
  omega

/-- `hash_intern` of a node whose encoding does not touch its cell. -/
theorem over_cached {o : Owner} {t : Trie CellId} {s : Heap} (hlt : t.ann.id < s.next)
    (hc : ∀ u, o t.ann.id = some u → t.nodeCount ≤ u.nodeCount)
    (ih : Pays o t.nodeCount (encodeNode P kec t) s) : (hashIntern P kec t).over s = 0 := by
  unfold hashIntern cached
  show (match TrieKind.cacheGet t.ann s with
    | some h => Prog.ret (EncodedNode.hashed h)
    | none => _ : Prog CellId EncodedNode).over s = 0
  cases hg : TrieKind.cacheGet t.ann s with
  | some x => rfl
  | none =>
    refine Prog.over_zero ih.1 fun e s1 hr => ?_
    obtain ⟨⟨k0, k1⟩, -⟩ := ih.2 e s1 hr
    cases e with
    | raw b => rfl
    | hashed x =>
      have he : s1.cell t.ann.id = none := (k1 _ hc).trans hg
      show (if _ then 0 else 1) + 0 = 0
      rw [if_pos ⟨by simp, by rw [k0]; exact hlt, he⟩]

theorem pays_cached {o : Owner} {t : Trie CellId} {s : Heap} (ho : OwnOK s o) (ht : Owned o t)
    (ih : Pays o t.nodeCount (encodeNode P kec t) s) :
    Pays o (t.nodeCount + 1) (hashIntern P kec t) s := by
  have hc : ∀ u, o t.ann.id = some u → t.nodeCount ≤ u.nodeCount := by
    intro u hu
    rw [show o t.ann.id = some t from ht] at hu
    cases hu
    exact Nat.le_refl _
  refine ⟨over_cached (ho.lt ht) hc ih, fun e s' hr => ⟨?_, ?_⟩⟩
  · unfold hashIntern cached at hr
    replace hr : (match TrieKind.cacheGet t.ann s with
      | some h => Prog.ret (EncodedNode.hashed h)
      | none => (encodeNode P kec t >>= fun
        | .hashed h => .write t.ann (some h) (.ret (.hashed h))
        | .raw b => .ret (.raw b)) : Prog CellId EncodedNode).run s = .ok (e, s') := hr
    cases hg : TrieKind.cacheGet t.ann s with
    | some x => rw [hg] at hr; cases hr; exact .refl _ _ _
    | none =>
      rw [hg] at hr
      simp only at hr
      rw [Prog.bind_run] at hr
      cases hp : (encodeNode P kec t).run s with
      | error x => rw [hp] at hr; cases hr
      | ok r =>
        obtain ⟨e1, s1⟩ := r
        rw [hp] at hr
        have k1 := (ih.2 e1 s1 hp).1.mono (Nat.le_succ _)
        cases e1 with
        | raw b => cases hr; exact k1
        | hashed x =>
          cases hr
          refine ⟨k1.1, fun c hcn => ?_⟩
          show upd s1.cell t.ann.id (some x) c = _
          rw [upd_other _ _, k1.2 c hcn]
          rintro rfl
          have := hcn t ht
          omega
  · obtain ⟨o', -, h2, rfl, -⟩ := (tri_hashIntern (P := P) (kec := kec) ho ht).run ho hr
    exact h2

theorem pays_encode {o : Owner} : ∀ (t : Trie CellId) {s : Heap}, OwnOK s o → KidsOwned o t →
    Pays o t.nodeCount (encodeNode P kec t) s := by
  intro t
  induction t with
  | empty a => exact fun ho _ => .ret ho _
  | hash a h => exact fun ho _ => .ret ho _
  | leaf a n v => exact fun ho _ => .lift fun _ _ => .ret ho _
  | ext a n c ih =>
    intro s ho hk
    refine .lift fun hp _ => ?_
    have hc : c ∈ (Trie.ext a n c).kids := by simp [Trie.kids]
    have hw := hk c hc
    exact ((pays_cached ho hw (ih ho (hw.kids ho))).mono (nodeCount_kid_lt hc)).bind fun _ _ _ ho1 => .ret ho1 _
  | branch a cs v ih =>
    intro s ho hk
    refine (Pays.seq (p := fun i => cached (cs i).ann (encodeNode P kec (cs i))) (fun i _ s1 ho1 => ?_) ho).bind
      fun _ _ _ ho1 => .ret ho1 _
    have hc : cs i ∈ (Trie.branch a cs v).kids := by simp [Trie.kids]
    have hw := hk _ hc
    exact (pays_cached ho1 hw (ih i ho1 (hw.kids ho1))).mono (nodeCount_kid_lt hc)

theorem over_hashIntern {o : Owner} {t : Trie CellId} {s : Heap} {root : Bool} (ho : OwnOK s o)
    (h : MadeOK root s o t) : (hashIntern P kec t).over s = 0 := by
  cases root with
  | true =>
    have h : RootOK s o t := h
    refine over_cached h.lt (fun u hu => ?_) (pays_encode t ho h.kids)
    rw [h.none] at hu
    cases hu
  | false => exact (pays_cached ho h (pays_encode t ho (Owned.kids h ho))).1

theorem over_rootHash {o : Owner} {t : Trie CellId} {s : Heap} (ho : OwnOK s o) (h : RootOK s o t) :
    (t.rootHash P kec).over s = 0 := by
  show (match TrieKind.cacheGet t.ann s with
    | some h => Prog.ret h
    | none => hashTrie P kec t : Prog CellId H256).over s = 0
  cases TrieKind.cacheGet t.ann s with
  | some x => rfl
  | none => exact Prog.over_zero (pays_encode t ho h.kids).1 fun _ _ _ => rfl

/-! ## Subsets only fill empty cells -/

theorem over_hashAway {o : Owner} {tr : Tracked CellId} {s : Heap} {root : Bool} (ho : OwnOK s o)
    (h : tr.Fit s o root) : (hashAway P kec tr).over s = 0 := by
  unfold hashAway
  split
  · refine Prog.over_zero (over_hashIntern ho h.u) fun e s' _ => ?_
    cases e <;> rfl
  · rfl

theorem over_seqMade {ι : Type} {p : ι → Prog CellId (Trie CellId)} : ∀ {l : List ι} {s : Heap} {o : Owner},
    OwnOK s o → (∀ i ∈ l, ∀ s' o', OwnLe s o s' o' → OwnOK s' o' → (p i).over s' = 0 ∧
      Tri (p i) s' o' fun _ _ _ => True) → (Prog.seq (l.map p)).over s = 0
  | [], s, o, _, _ => rfl
  | i :: l, s, o, ho, hp => by
    obtain ⟨h1, h2⟩ := hp i (by simp) s o (.refl _ _) ho
    refine Prog.over_zero h1 fun t s1 hr => ?_
    obtain ⟨o1, hl, ho1, -⟩ := h2.run ho hr
    exact Prog.over_zero (over_seqMade ho1 fun j hj s' o' hl' => hp j (by simp [hj]) s' o' (hl.trans hl'))
      fun _ _ _ => rfl

theorem over_createSubset : ∀ (tr : Tracked CellId) {s : Heap} {o : Owner} {root : Bool}, OwnOK s o →
    tr.Fit s o root → (createSubset P kec tr).over s = 0 := by
  intro tr
  induction tr with
  | empty u b =>
    intro s o root ho hf
    unfold createSubset
    refine Prog.over_zero (over_hashAway ho hf) fun x s1 _ => ?_
    cases x <;> rfl
  | hash u b =>
    intro s o root ho hf
    unfold createSubset
    refine Prog.over_zero (over_hashAway ho hf) fun x s1 _ => ?_
    cases x with
    | some x => rfl
    | none => exact Prog.over_lift fun _ _ => rfl
  | leaf u b =>
    intro s o root ho hf
    unfold createSubset
    refine Prog.over_zero (over_hashAway ho hf) fun x s1 _ => ?_
    cases x with
    | some x => rfl
    | none => exact Prog.over_lift fun _ _ => rfl
  | ext u b c ih =>
    intro s o root ho hf
    unfold createSubset
    refine Prog.over_zero (over_hashAway ho hf) fun x s1 hr => ?_
    obtain ⟨o1, hl, ho1, -⟩ := (tri_hashAway ho hf).run ho hr
    cases x with
    | some x => rfl
    | none =>
      exact Prog.over_lift fun _ _ => Prog.over_zero (ih ho1 (hf.2.le hl)) fun _ _ _ => rfl
  | branch u b cs ih =>
    intro s o root ho hf
    unfold createSubset
    refine Prog.over_zero (over_hashAway ho hf) fun x s1 hr => ?_
    obtain ⟨o1, hl, ho1, -⟩ := (tri_hashAway ho hf).run ho hr
    cases x with
    | some x => rfl
    | none =>
      refine Prog.over_lift fun _ _ => Prog.over_zero ?_ fun _ _ _ => Prog.over_lift fun _ _ => rfl
      refine over_seqMade ho1 fun i _ s' o' hl' ho' => ?_
      have hf' := (hf.2 i).le (hl.trans hl')
      exact ⟨ih i ho' hf', (tri_createSubset (cs i) ho' hf').mono ho' fun _ _ _ _ _ _ => trivial⟩

theorem over_subset {o : Owner} {t : Trie CellId} {s : Heap} (ho : OwnOK s o) (ht : RootOK s o t)
    (ks : List Nibbles) : (createTrieSubset P kec t ks).over s = 0 := by
  unfold createTrieSubset
  refine Prog.over_lift fun r hr => ?_
  cases r with
  | error e => rfl
  | ok tr =>
    exact Prog.over_zero (over_createSubset (root := true) tr ho (fit_markAll ks hr (fit_new ho t ht)))
      fun _ _ _ => rfl

theorem over_subsetsFrom : ∀ (kss : List (List Nibbles)) {tr : Tracked CellId} {s : Heap} {o : Owner},
    OwnOK s o → tr.Fit s o true → (createTrieSubsetsFrom P kec tr kss).over s = 0
  | [], tr, s, o, _, _ => rfl
  | ks :: kss, tr, s, o, ho, hf => by
    unfold createTrieSubsetsFrom
    refine Prog.over_lift fun r hr => ?_
    cases r with
    | error e => rfl
    | ok tr' =>
      have hf' := fit_markAll ks hr hf
      refine Prog.over_zero (over_createSubset (root := true) tr' ho hf') fun t s1 h1 => ?_
      obtain ⟨o1, hl, ho1, -⟩ := (tri_createSubset (root := true) tr' ho hf').run ho h1
      refine Prog.over_zero (over_subsetsFrom kss ho1 (fit_reset (hf'.le hl))) fun r _ _ => ?_
      cases r <;> rfl

/-! ## Calls of Keccak store hashes -/

section
variable {α S : Type} [K : TrieKind α S]

theorem stored_cached (a : α) (p : Prog α EncodedNode) (s : S) (hg : K.cacheGet a s = none) :
    (cached a p).stored s = p.stored s + match p.run s with
      | .ok (.hashed _, _) => 1
      | _ => 0 := by
  unfold cached
  show (match K.cacheGet a s with
    | some h => Prog.ret (EncodedNode.hashed h)
    | none => _ : Prog α EncodedNode).stored s = _
  rw [hg]
  simp only
  rw [Prog.stored_bind]
  cases p.run s with
  | error e => rfl
  | ok r =>
    obtain ⟨e, s'⟩ := r
    cases e <;> rfl

theorem keccaks_encode : ∀ (t : Trie α) (s : S),
    t.encKeccaks P kec s ≤ (encodeNode P kec t).stored s + ownKeccak P kec t s := by
  have child : ∀ (t : Trie α), (∀ s : S, t.encKeccaks P kec s ≤ (encodeNode P kec t).stored s +
      ownKeccak P kec t s) → ∀ s : S, (match K.cacheGet t.ann s with
        | some _ => 0
        | none => t.encKeccaks P kec s) ≤ (hashIntern P kec t).stored s := by
    intro t ih s
    cases hg : K.cacheGet t.ann s with
    | some x => exact Nat.zero_le _
    | none =>
      unfold hashIntern
      rw [stored_cached _ _ _ hg]
      exact ih s
  intro t
  induction t with
  | empty a => exact fun _ => Nat.zero_le _
  | hash a h => exact fun _ => Nat.zero_le _
  | leaf a n v => exact fun s => Nat.le_add_left _ _
  | ext a n c ih =>
    intro s
    unfold Trie.encKeccaks encodeNode
    rw [Prog.stored_bind]
    cases n.toHexPrefixEncoding P false with
    | error e => exact Nat.zero_le _
    | ok hp =>
      simp only [Prog.lift, Prog.run]
      rw [Prog.stored_bind]
      refine Nat.add_le_add_right (Nat.le_trans (child c ih s) ?_) _
      unfold hashIntern
      omega
  | branch a cs v ih =>
    intro s
    unfold Trie.encKeccaks encodeNode
    rw [Prog.stored_bind]
    refine Nat.add_le_add_right (Nat.le_trans ?_ (Nat.le_add_right _ _)) _
    rw [Prog.stored_seq]
    exact Prog.along_le (fun i _ s => child (cs i) (ih i) s) s

/-- `hash_intern` stores a hash for each call of Keccak. -/
theorem keccaks_intern (t : Trie α) (s : S) : t.internKeccaks P kec s ≤ (hashIntern P kec t).stored s := by
  unfold Trie.internKeccaks
  cases hg : K.cacheGet t.ann s with
  | some x => exact Nat.zero_le _
  | none =>
    unfold hashIntern
    rw [stored_cached _ _ _ hg]
    exact keccaks_encode t s

/-- `hash()` stores a hash for each call but the last. -/
theorem keccaks_root (t : Trie α) (s : S) : t.rootKeccaks P kec s ≤ (t.rootHash P kec).stored s + 1 := by
  unfold Trie.rootKeccaks Trie.rootHash hashProg
  show _ ≤ (match K.cacheGet t.ann s with
    | some h => Prog.ret h
    | none => hashTrie P kec t : Prog α H256).stored s + 1
  cases hg : K.cacheGet t.ann s with
  | some x => exact Nat.zero_le _
  | none =>
    simp only
    have h1 := keccaks_encode (P := P) (kec := kec) t s
    unfold hashTrie
    rw [Prog.stored_bind]
    unfold ownKeccak at h1
    cases hr : (encodeNode P kec t).run s with
    | error e =>
      rw [hr] at h1
      simp only at h1 ⊢
      omega
    | ok r =>
      obtain ⟨e, s'⟩ := r
      rw [hr] at h1
      cases e with
      | raw b => simp only at h1 ⊢; omega
      | hashed x => exact h1

theorem keccaks_away (tr : Tracked α) (s : S) : awayKeccaks P kec tr s ≤ (hashAway P kec tr).stored s := by
  unfold awayKeccaks hashAway
  cases tr.touched with
  | true => exact Nat.zero_le _
  | false =>
    show _ ≤ ((hashIntern P kec tr.u).bind _).stored s
    rw [Prog.stored_bind]
    exact Nat.le_trans (keccaks_intern tr.u s) (Nat.le_add_right _ _)

theorem Prog.stored_bind_le {β γ : Type} {p : Prog α β} {f : β → Prog α γ} {s : S} {n m : Nat}
    (hn : n ≤ p.stored s) (hm : ∀ b s', p.run s = .ok (b, s') → m ≤ (f b).stored s')
    (he : ∀ e, p.run s = .error e → m = 0) : n + m ≤ (p >>= f).stored s := by
  show _ ≤ (p.bind f).stored s
  rw [Prog.stored_bind]
  refine Nat.add_le_add hn ?_
  cases hr : p.run s with
  | error e => rw [he e hr]
  | ok r => exact hm r.1 r.2 hr

theorem Prog.stored_first {β γ : Type} (p : Prog α β) (f : β → Prog α γ) (s : S) :
    p.stored s ≤ (p >>= f).stored s := by
  show _ ≤ (p.bind f).stored s
  rw [Prog.stored_bind]
  exact Nat.le_add_right _ _

theorem keccaks_createSubset : ∀ (tr : Tracked α) (s : S),
    tr.keccaks P kec s ≤ (createSubset P kec tr).stored s := by
  have away : ∀ (tr : Tracked α) (s : S) (f : Option H256 → Prog α (Trie α)),
      awayKeccaks P kec tr s ≤ (hashAway P kec tr >>= f).stored s := fun tr s f =>
    Nat.le_trans (keccaks_away tr s) (Prog.stored_first _ _ _)
  intro tr
  induction tr with
  | empty u b => exact fun s => away _ s _
  | hash u b => exact fun s => away _ s _
  | leaf u b => exact fun s => away _ s _
  | ext u b c ih =>
    intro s
    unfold Tracked.keccaks createSubset
    refine Prog.stored_bind_le (keccaks_away _ s) (fun x s1 hr => ?_) fun e hr => ?_
    · rw [hr]
      cases x with
      | some x => exact Nat.zero_le _
      | none =>
        cases getNibblesExpected u with
        | error e => exact Nat.zero_le _
        | ok n => exact Nat.le_trans (ih s1) (Prog.stored_first _ _ _)
    · rw [hr]
  | branch u b cs ih =>
    intro s
    rw [Tracked.keccaks, createSubset]
    refine Prog.stored_bind_le (keccaks_away _ s) (fun x s1 hr => ?_) fun e hr => ?_
    · rw [hr]
      cases x with
      | some x => exact Nat.zero_le _
      | none =>
        cases getBranchValueExpected u with
        | error e => exact Nat.zero_le _
        | ok n =>
          refine Nat.le_trans ?_ (Prog.stored_first
            (Prog.seq ((List.finRange 16).map fun i => createSubset P kec (cs i))) _ s1)
          rw [Prog.stored_seq]
          exact Prog.along_le (fun i _ s => ih i s) s1
    · rw [hr]

theorem keccaks_subset (t : Trie α) (ks : List Nibbles) (s : S) :
    (match markAll P (Tracked.new t) ks with
      | .ok (.ok tr) => tr.keccaks P kec s
      | _ => 0) ≤ (createTrieSubset P kec t ks).stored s := by
  unfold createTrieSubset
  cases markAll P (Tracked.new t) ks with
  | error e => exact Nat.zero_le _
  | ok r =>
    cases r with
    | error e => exact Nat.zero_le _
    | ok tr => exact Nat.le_trans (keccaks_createSubset tr s) (Prog.stored_first _ _ _)

theorem keccaks_subsets : ∀ (kss : List (List Nibbles)) (tr : Tracked α) (s : S),
    subsetsKeccaks P kec tr kss s ≤ (createTrieSubsetsFrom P kec tr kss).stored s
  | [], tr, s => Nat.zero_le _
  | ks :: kss, tr, s => by
    unfold subsetsKeccaks createTrieSubsetsFrom
    cases markAll P tr ks with
    | error e => exact Nat.zero_le _
    | ok r =>
      cases r with
      | error e => exact Nat.zero_le _
      | ok tr' =>
        simp only
        show _ ≤ (createSubset P kec tr' >>= _).stored s
        refine Prog.stored_bind_le (keccaks_createSubset tr' s) (fun t s1 hr => ?_) fun e hr => ?_
        · rw [hr]
          exact Nat.le_trans (keccaks_subsets kss _ s1) (Prog.stored_first _ _ _)
        · rw [hr]

end

/-! ## Reads and hashes -/

theorem reads_cached_ok {o : Owner} {t : Trie CellId} {s s' : Heap} {e : EncodedNode} (ho : OwnOK s o)
    (ht : Owned o t) (hr : (hashIntern P kec t).run s = .ok (e, s'))
    (ih : ∀ e s', (encodeNode P kec t).run s = .ok (e, s') →
      (encodeNode P kec t).reads s ≤ 496 + 496 * (encodeNode P kec t).stored s) :
    (hashIntern P kec t).reads s ≤ 31 + 496 * (hashIntern P kec t).stored s := by
  cases hg : TrieKind.cacheGet t.ann s with
  | some x =>
    unfold hashIntern cached
    show 1 + (match TrieKind.cacheGet t.ann s with
      | some h => Prog.ret (EncodedNode.hashed h)
      | none => _ : Prog CellId EncodedNode).reads s ≤ _
    rw [hg]
    show 1 + 0 ≤ _
    omega
  | none =>
    have hb := (tri_hashIntern (P := P) (kec := kec) ho ht).run ho hr
    obtain ⟨-, -, -, -, -, hb⟩ := hb
    have hreads : (hashIntern P kec t).reads s = 1 + (encodeNode P kec t).reads s := by
      unfold hashIntern cached
      show 1 + (match TrieKind.cacheGet t.ann s with
        | some h => Prog.ret (EncodedNode.hashed h)
        | none => _ : Prog CellId EncodedNode).reads s = _
      rw [hg]
      simp only
      rw [Prog.reads_bind]
      cases (encodeNode P kec t).run s with
      | error e => rfl
      | ok r =>
        obtain ⟨e, s'⟩ := r
        cases e <;> rfl
    have hstored : (hashIntern P kec t).stored s = _ := stored_cached t.ann (encodeNode P kec t) s hg
    have hrun : (hashIntern P kec t).run s = _ :=
      show _ = (encodeNode P kec t >>= fun
        | .hashed h => .write t.ann (some h) (.ret (.hashed h))
        | .raw b => .ret (.raw b) : Prog CellId EncodedNode).run s by
        unfold hashIntern cached
        show (match TrieKind.cacheGet t.ann s with
          | some h => Prog.ret (EncodedNode.hashed h)
          | none => _ : Prog CellId EncodedNode).run s = _
        rw [hg]
        rfl
    rw [hrun, Prog.bind_run] at hr
    cases hp : (encodeNode P kec t).run s with
    | error x => rw [hp] at hr; cases hr
    | ok r =>
      obtain ⟨e1, s1⟩ := r
      have h1 := ih e1 s1 hp
      rw [hp] at hr
      cases e1 with
      | hashed x =>
        rw [hreads, hstored, hp]
        simp only
        omega
      | raw b =>
        cases hr
        have := hb b rfl
        have h2 : (encodeNode P kec t).reads s ≤ t.costN s := reads_encode t s
        have h3 := Trie.cost_nodeCount s t
        rw [Trie.cost_eq, if_pos (show s.cell t.ann.id = none from hg)] at h3
        rw [hreads]
        omega

theorem reads_seq_ok {ι : Type} {o : Owner} {p : ι → Prog CellId EncodedNode} : ∀ {l : List ι},
    (∀ i ∈ l, ∀ s, OwnOK s o → ∀ e s', (p i).run s = .ok (e, s') →
      (p i).reads s ≤ 31 + 496 * (p i).stored s ∧ OwnOK s' o) → ∀ {s s' : Heap} {es : List EncodedNode}, OwnOK s o →
    (Prog.seq (l.map p)).run s = .ok (es, s') →
    (Prog.seq (l.map p)).reads s ≤ 31 * l.length + 496 * (Prog.seq (l.map p)).stored s
  | [], _, s, s', es, _, _ => Nat.zero_le _
  | i :: l, h, s, s', es, ho, hr => by
    simp only [List.map_cons, Prog.seq] at hr ⊢
    replace hr : (p i >>= fun b => Prog.seq (l.map p) >>= fun bs => .ret (b :: bs)).run s = .ok (es, s') := hr
    rw [Prog.bind_run] at hr
    rw [Prog.reads_bind, Prog.stored_bind]
    cases hp : (p i).run s with
    | error x => rw [hp] at hr; cases hr
    | ok r =>
      obtain ⟨e1, s1⟩ := r
      rw [hp] at hr
      obtain ⟨h1, ho1⟩ := h i (by simp) s ho e1 s1 hp
      simp only at hr ⊢
      rw [Prog.bind_run] at hr
      rw [Prog.reads_bind, Prog.stored_bind]
      cases hq : (Prog.seq (l.map p)).run s1 with
      | error x => rw [hq] at hr; cases hr
      | ok r =>
        obtain ⟨e2, s2⟩ := r
        have h2 := reads_seq_ok (fun j hj => h j (by simp [hj])) ho1 hq
        simp only [Prog.reads, Prog.stored, List.length_cons]
        omega

/-- A node that is encoded costs at most sixteen times the nodes of a small child, and each hash that is
stored below it as much again. -/
theorem reads_encode_ok {o : Owner} : ∀ (t : Trie CellId) {s s' : Heap} {e : EncodedNode}, OwnOK s o →
    KidsOwned o t → (encodeNode P kec t).run s = .ok (e, s') →
    (encodeNode P kec t).reads s ≤ 496 + 496 * (encodeNode P kec t).stored s := by
  intro t
  induction t with
  | empty a => exact fun _ _ _ => Nat.zero_le _
  | hash a h => exact fun _ _ _ => Nat.zero_le _
  | leaf a n v =>
    intro s s' e ho hk hr
    unfold encodeNode
    rw [Prog.reads_bind]
    cases n.toHexPrefixEncoding P true <;> exact Nat.zero_le _
  | ext a n c ih =>
    intro s s' e ho hk hr
    unfold encodeNode at hr ⊢
    rw [Prog.reads_bind, Prog.stored_bind]
    cases hn : n.toHexPrefixEncoding P false with
    | error x => exact Nat.zero_le _
    | ok hp =>
      rw [hn] at hr
      simp only [Prog.lift, Prog.run, Prog.reads, Prog.stored]
      rw [Prog.reads_bind, Prog.stored_bind]
      replace hr : (hashIntern P kec c >>= fun e => .ret (hashIfLarge kec (rlpList [rlpValue hp, e.item]))
        : Prog CellId EncodedNode).run s = .ok (e, s') := hr
      rw [Prog.bind_run] at hr
      cases hc : (hashIntern P kec c).run s with
      | error x => rw [hc] at hr; cases hr
      | ok r =>
        obtain ⟨e1, s1⟩ := r
        have hw := hk c (by simp [Trie.kids])
        have h1 := reads_cached_ok ho hw hc fun e2 s2 h2 => ih ho (hw.kids ho) h2
        unfold hashIntern at h1 hc
        rw [hc]
        simp only [Prog.reads, Prog.stored]
        omega
  | branch a cs v ih =>
    intro s s' e ho hk hr
    unfold encodeNode at hr ⊢
    rw [Prog.reads_bind, Prog.stored_bind]
    replace hr : (Prog.seq ((List.finRange 16).map fun i => hashIntern P kec (cs i)) >>= fun es =>
      .ret _ : Prog CellId EncodedNode).run s = .ok (e, s') := hr
    rw [Prog.bind_run] at hr
    cases hc : (Prog.seq ((List.finRange 16).map fun i => hashIntern P kec (cs i))).run s with
    | error x => rw [hc] at hr; cases hr
    | ok r =>
      obtain ⟨es, s1⟩ := r
      have h1 := reads_seq_ok (o := o) (p := fun i => hashIntern P kec (cs i)) (fun i _ s1 ho1 e1 s2 h2 => by
        have hw := hk (cs i) (by simp [Trie.kids])
        refine ⟨reads_cached_ok ho1 hw h2 fun e3 s3 h3 => ih i ho1 (hw.kids ho1) h3, ?_⟩
        obtain ⟨o', -, k2, rfl, -⟩ := (tri_hashIntern (P := P) (kec := kec) ho1 hw).run ho1 h2
        exact k2) ho hc
      unfold hashIntern at h1 hc
      rw [hc]
      simp only [Prog.reads, Prog.stored, List.length_finRange] at h1 ⊢
      omega

theorem reads_rootHash_ok {o : Owner} {t : Trie CellId} {s s' : Heap} {x : H256} (ho : OwnOK s o)
    (ht : RootOK s o t) (hr : (t.rootHash P kec).run s = .ok (x, s')) :
    (t.rootHash P kec).reads s ≤ 497 + 496 * (t.rootHash P kec).stored s := by
  replace hr : (match TrieKind.cacheGet t.ann s with
    | some h => Prog.ret h
    | none => hashTrie P kec t : Prog CellId H256).run s = .ok (x, s') := hr
  show 1 + (match TrieKind.cacheGet t.ann s with
    | some h => Prog.ret h
    | none => hashTrie P kec t : Prog CellId H256).reads s ≤ 497 + 496 * (match TrieKind.cacheGet t.ann s with
    | some h => Prog.ret h
    | none => hashTrie P kec t : Prog CellId H256).stored s
  cases hg : TrieKind.cacheGet t.ann s with
  | some x =>
    show 1 + 0 ≤ _
    omega
  | none =>
    rw [hg] at hr
    simp only at hr ⊢
    unfold hashTrie at hr ⊢
    replace hr : (encodeNode P kec t >>= fun e => .ret (e.toH256 kec)).run s = .ok (x, s') := hr
    rw [Prog.bind_run] at hr
    rw [Prog.reads_bind, Prog.stored_bind]
    cases hp : (encodeNode P kec t).run s with
    | error x => rw [hp] at hr; cases hr
    | ok r =>
      obtain ⟨e, s1⟩ := r
      have h1 := reads_encode_ok t ho ht.kids hp
      simp only [Prog.reads, Prog.stored]
      omega

end EthTrie
