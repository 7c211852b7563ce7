import Verif.Cost.Model

/-!
# Which node a cache cell belongs to

For programs that consist of calls, the cells of nodes below the roots of tries belong to one node each
(a node can be part of several tries), and what is below a node whose cell is filled does not have to be
hashed again.
-/

namespace EthTrie

open Nibbles

/-! ## Sums over the children of a branch -/

/-- The sum of sixteen numbers. -/
def sum16 (f : Fin 16 → Nat) : Nat := ((List.finRange 16).map f).sum

theorem sum_le_of {ι : Type} {f g : ι → Nat} : ∀ (l : List ι), (∀ i ∈ l, f i ≤ g i) →
    (l.map f).sum ≤ (l.map g).sum
  | [], _ => Nat.le_refl _
  | x :: l, h => by
    simp only [List.map_cons, List.sum_cons]
    exact Nat.add_le_add (h x (by simp)) (sum_le_of l fun i hi => h i (by simp [hi]))

theorem sum16_le {f g : Fin 16 → Nat} (h : ∀ i, f i ≤ g i) : sum16 f ≤ sum16 g :=
  sum_le_of _ fun i _ => h i

theorem sum_affine {ι : Type} {f g : ι → Nat} {a b : Nat} : ∀ (l : List ι),
    (∀ i ∈ l, f i ≤ a + b * g i) → (l.map f).sum ≤ l.length * a + b * (l.map g).sum
  | [], _ => by simp
  | x :: l, h => by
    simp only [List.map_cons, List.sum_cons, List.length_cons]
    have h1 := h x (by simp)
    have h2 := sum_affine l fun i hi => h i (by simp [hi])
    rw [Nat.mul_add, Nat.add_mul, Nat.one_mul]
    omega

theorem sum_map_upd {ι β : Type} [DecidableEq ι] (f : β → Nat) (cs : ι → β) (i : ι) (x : β) :
    ∀ (l : List ι), l.Nodup → (l.map fun j => f (upd cs i x j)).sum + (if i ∈ l then f (cs i) else 0) =
      (l.map fun j => f (cs j)).sum + if i ∈ l then f x else 0
  | [], _ => rfl
  | y :: l, h => by
    have ih := sum_map_upd f cs i x l (List.nodup_cons.1 h).2
    have hy := (List.nodup_cons.1 h).1
    simp only [List.map_cons, List.sum_cons, List.mem_cons]
    by_cases e : y = i
    · subst e
      simp only [upd, if_true, true_or, if_neg hy] at ih ⊢
      omega
    · have e' : ¬ i = y := fun h => e h.symm
      simp only [upd, if_neg e, e', false_or] at ih ⊢
      omega

theorem sum16_upd {β : Type} (f : β → Nat) (cs : Fin 16 → β) (i : Fin 16) (x : β) :
    sum16 (fun j => f (upd cs i x j)) + f (cs i) = sum16 (fun j => f (cs j)) + f x := by
  have := sum_map_upd f cs i x (List.finRange 16) (List.nodup_finRange 16)
  simpa [sum16] using this

theorem sum16_zero {f : Fin 16 → Nat} (h : ∀ i, f i = 0) : sum16 f = 0 := by
  have : f = fun _ => 0 := funext h
  subst this
  rfl

theorem le_sum_of_mem {l : List Nat} {x : Nat} (h : x ∈ l) : x ≤ l.sum := by
  induction l with
  | nil => cases h
  | cons y l ih =>
    rw [List.sum_cons]
    rcases List.mem_cons.1 h with rfl | h
    · omega
    · have := ih h; omega

theorem le_sum16 (f : Fin 16 → Nat) (i : Fin 16) : f i ≤ sum16 f :=
  le_sum_of_mem (List.mem_map.2 ⟨i, List.mem_finRange i, rfl⟩)

/-! ## Nodes -/

namespace Trie
variable {α : Type}

/-- The number of nodes, with empty ones. -/
def nodeCount : Trie α → Nat
  | .branch _ cs _ => 1 + sum16 fun i => (cs i).nodeCount
  | .ext _ _ c => 1 + c.nodeCount
  | _ => 1

/-- The children. -/
def kids : Trie α → List (Trie α)
  | .branch _ cs _ => (List.finRange 16).map cs
  | .ext _ _ c => [c]
  | _ => []

@[simp] theorem kids_setAnn (t : Trie α) (b : α) : (t.setAnn b).kids = t.kids := by cases t <;> rfl

theorem kids_length (t : Trie α) : t.kids.length ≤ 16 := by
  cases t <;> simp [kids]

theorem nodeCount_eq (t : Trie α) : t.nodeCount = 1 + (t.kids.map nodeCount).sum := by
  cases t <;> simp [nodeCount, kids, sum16, List.map_map, Function.comp_def]

theorem nodeCount_kid {t v : Trie α} (h : v ∈ t.kids) : v.nodeCount ≤ t.nodeCount := by
  rw [t.nodeCount_eq]
  have : v.nodeCount ≤ (t.kids.map nodeCount).sum := le_sum_of_mem (List.mem_map_of_mem h)
  omega

/-- Induction over the children. -/
theorem kidsInd {motive : Trie α → Prop} (h : ∀ t, (∀ v ∈ t.kids, motive v) → motive t) :
    ∀ t, motive t := by
  intro t
  induction t with
  | empty a => exact h _ (by simp [kids])
  | hash a x => exact h _ (by simp [kids])
  | leaf a n v => exact h _ (by simp [kids])
  | ext a n c ih => exact h _ (by simpa [kids] using ih)
  | branch a cs v ih => exact h _ (by simpa [kids] using ih)

/-- The number of nodes that hashing looks at, including the root. -/
def cost (s : Heap) : Trie CellId → Nat
  | .branch a cs _ => 1 + if s.cell a.id = none then sum16 fun i => (cs i).cost s else 0
  | .ext a _ c => 1 + if s.cell a.id = none then c.cost s else 0
  | _ => 1

/-- The number of nodes below the root that hashing the node looks at. -/
def costN (s : Heap) (t : Trie CellId) : Nat := (t.kids.map (cost s)).sum

theorem cost_eq (s : Heap) (t : Trie CellId) :
    t.cost s = 1 + if s.cell t.ann.id = none then t.costN s else 0 := by
  cases t <;> simp [cost, costN, kids, ann, sum16, List.map_map, Function.comp_def]

/-- The number of nodes that are not small and have an empty cell. -/
def cold (s : Heap) : Trie CellId → Nat
  | .branch a cs v => if (Trie.branch a cs v).nodeCount ≤ 31 then 0 else
      (if s.cell a.id = none then 1 else 0) + sum16 fun i => (cs i).cold s
  | .ext a n c => if (Trie.ext a n c).nodeCount ≤ 31 then 0 else
      (if s.cell a.id = none then 1 else 0) + c.cold s
  | _ => 0

/-- The same for the nodes below the root. -/
def coldN (s : Heap) (t : Trie CellId) : Nat := (t.kids.map (cold s)).sum

theorem cold_eq (s : Heap) (t : Trie CellId) : t.cold s = if t.nodeCount ≤ 31 then 0 else
    (if s.cell t.ann.id = none then 1 else 0) + t.coldN s := by
  cases t with
  | branch a cs v => simp [cold, coldN, kids, ann, sum16, List.map_map, Function.comp_def]; rfl
  | ext a n c => simp [cold, coldN, kids, ann]; rfl
  | _ => simp [cold, nodeCount]

theorem cold_small {s : Heap} {t : Trie CellId} (h : t.nodeCount ≤ 31) : t.cold s = 0 := by
  rw [cold_eq, if_pos h]

theorem cold_le (s : Heap) (t : Trie CellId) : t.cold s ≤ 1 + t.coldN s := by
  rw [cold_eq]
  split
  · omega
  · split <;> omega

theorem coldN_small {s : Heap} {t : Trie CellId} (h : t.nodeCount ≤ 31) : t.coldN s = 0 := by
  unfold coldN
  rw [List.sum_eq_zero_iff_forall_eq_nat]
  intro x hx
  obtain ⟨v, hv, rfl⟩ := List.mem_map.1 hx
  exact cold_small (Nat.le_trans (nodeCount_kid hv) h)

theorem coldN_le (s : Heap) (t : Trie CellId) : t.coldN s ≤ t.cold s := by
  rw [cold_eq]
  split
  · rename_i h
    rw [coldN_small h]
  · omega

theorem cold_kid {s : Heap} {t v : Trie CellId} (h : v ∈ t.kids) : v.cold s ≤ t.coldN s :=
  le_sum_of_mem (List.mem_map_of_mem h)

theorem cost_nodeCount (s : Heap) : ∀ t : Trie CellId, t.cost s ≤ t.nodeCount := by
  refine kidsInd fun t ih => ?_
  rw [cost_eq, nodeCount_eq]
  have : t.costN s ≤ (t.kids.map nodeCount).sum := sum_le_of _ ih
  split <;> omega

/-- Hashing looks at few nodes if few nodes are cold. -/
theorem cost_cold (s : Heap) : ∀ t : Trie CellId, t.cost s ≤ 31 + 496 * t.cold s := by
  refine kidsInd fun t ih => ?_
  by_cases hs : t.nodeCount ≤ 31
  · have := cost_nodeCount s t
    omega
  · rw [cost_eq, cold_eq, if_neg hs]
    split
    · have h1 : t.costN s ≤ t.kids.length * 31 + 496 * t.coldN s := sum_affine _ ih
      have := t.kids_length
      omega
    · omega

theorem costN_cold (s : Heap) (t : Trie CellId) : t.costN s ≤ 496 * (1 + t.coldN s) := by
  have h1 : t.costN s ≤ t.kids.length * 31 + 496 * t.coldN s :=
    sum_affine _ fun v _ => cost_cold s v
  have := t.kids_length
  omega

/-- Nothing below the node has to be hashed again, unless it is small. -/
inductive Hot (s : Heap) : Trie CellId → Prop
  | small {t : Trie CellId} (h : t.nodeCount ≤ 31) : Hot s t
  | full {t : Trie CellId} (h : s.cell t.ann.id ≠ none) (hk : ∀ v, v ∈ t.kids → Hot s v) : Hot s t

theorem Hot.cold {s : Heap} {t : Trie CellId} (h : Hot s t) : t.cold s = 0 := by
  induction h with
  | small h => exact cold_small h
  | full h hk ih =>
    rw [cold_eq, if_neg h]
    split
    · rfl
    · rw [Nat.zero_add]
      unfold coldN
      rw [List.sum_eq_zero_iff_forall_eq_nat]
      intro x hx
      obtain ⟨v, hv, rfl⟩ := List.mem_map.1 hx
      exact ih v hv

theorem Hot.coldN {s : Heap} {t : Trie CellId} (h : ∀ v ∈ t.kids, Hot s v) : t.coldN s = 0 := by
  unfold Trie.coldN
  rw [List.sum_eq_zero_iff_forall_eq_nat]
  intro x hx
  obtain ⟨v, hv, rfl⟩ := List.mem_map.1 hx
  exact (h v hv).cold

end Trie

/-! ## Owners -/

/-- The node that a cell belongs to.  The cells of roots belong to no node. -/
abbrev Owner := Nat → Option (Trie CellId)

/-- The cell of the node belongs to the node. -/
def Owned (o : Owner) (t : Trie CellId) : Prop := o t.ann.id = some t

/-- The cells of the nodes below the root belong to them. -/
def KidsOwned (o : Owner) (t : Trie CellId) : Prop := ∀ v ∈ t.kids, Owned o v

/-- What is known about owners. -/
structure OwnOK (s : Heap) (o : Owner) : Prop where
  lt : ∀ {c u}, o c = some u → c < s.next
  kids : ∀ {c u}, o c = some u → KidsOwned o u
  ann : ∀ {c u}, o c = some u → u.ann.id = c
  hot : ∀ {c u}, o c = some u → s.cell c ≠ none → u.Hot s

/-- Later states. -/
structure OwnLe (s : Heap) (o : Owner) (s' : Heap) (o' : Owner) : Prop where
  next : s.next ≤ s'.next
  some : ∀ {c u}, o c = some u → o' c = some u
  none : ∀ {c}, c < s.next → o c = none → o' c = none
  full : ∀ {c u}, o c = .some u → s.cell c ≠ .none → s'.cell c ≠ .none

theorem OwnLe.refl (s : Heap) (o : Owner) : OwnLe s o s o := ⟨Nat.le_refl _, id, fun _ h => h, fun _ h => h⟩

theorem OwnLe.trans {s1 s2 s3 : Heap} {o1 o2 o3 : Owner} (h1 : OwnLe s1 o1 s2 o2)
    (h2 : OwnLe s2 o2 s3 o3) : OwnLe s1 o1 s3 o3 :=
  ⟨Nat.le_trans h1.next h2.next, fun h => h2.some (h1.some h),
    fun h e => h2.none (Nat.lt_of_lt_of_le h h1.next) (h1.none h e),
    fun h e => h2.full (h1.some h) (h1.full h e)⟩

variable {s s' : Heap} {o o' : Owner} {t : Trie CellId}

theorem Owned.le (h : Owned o t) (hl : OwnLe s o s' o') : Owned o' t := hl.some h

theorem KidsOwned.le (h : KidsOwned o t) (hl : OwnLe s o s' o') : KidsOwned o' t :=
  fun v hv => (h v hv).le hl

theorem Owned.kids (h : Owned o t) (ho : OwnOK s o) : KidsOwned o t := ho.kids h

theorem Trie.Hot.mono (h : t.Hot s) (hl : OwnLe s o s' o') (ho : OwnOK s o) :
    Owned o t → t.Hot s' := by
  induction h with
  | small h => exact fun _ => .small h
  | full h hk ih => exact fun hw => .full (hl.full hw h) fun v hv => ih v hv (hw.kids ho v hv)

theorem Trie.cold_mono (hl : OwnLe s o s' o') (ho : OwnOK s o) :
    ∀ t : Trie CellId, Owned o t → t.cold s' ≤ t.cold s := by
  refine Trie.kidsInd fun t ih hw => ?_
  rw [cold_eq, cold_eq]
  split
  · exact Nat.le_refl _
  · have h1 : t.coldN s' ≤ t.coldN s := sum_le_of _ fun v hv => ih v hv (hw.kids ho v hv)
    have h2 := hl.full hw
    split <;> split <;> first | omega | skip
    rename_i h3 h4
    exact absurd h3 (h2 h4)

theorem Trie.coldN_mono (hl : OwnLe s o s' o') (ho : OwnOK s o) (h : KidsOwned o t) :
    t.coldN s' ≤ t.coldN s := sum_le_of _ fun v hv => Trie.cold_mono hl ho v (h v hv)

/-! ## Programs -/

/-- The program keeps the knowledge about owners, and its result satisfies `Q`. -/
def Tri {A : Type} : Prog CellId A → Heap → Owner → (Heap → Owner → A → Prop) → Prop
  | .ret a, s, o, Q => Q s o a
  | .panic _, _, _, _ => True
  | .alloc k, s, o, Q => ∃ o', OwnLe s o (TrieKind.alloc (α := CellId) s).2 o' ∧
      OwnOK (TrieKind.alloc (α := CellId) s).2 o' ∧
      Tri (k (TrieKind.alloc s).1) (TrieKind.alloc (α := CellId) s).2 o' Q
  | .read a k, s, o, Q => Tri (k (TrieKind.cacheGet a s)) s o Q
  | .write a v k, s, o, Q => OwnLe s o (TrieKind.cacheSet a v s) o ∧ OwnOK (TrieKind.cacheSet a v s) o ∧
      Tri k (TrieKind.cacheSet a v s) o Q

section
variable {A B : Type} {Q : Heap → Owner → A → Prop}

theorem Tri.run {p : Prog CellId A} {s : Heap} {o : Owner} (h : Tri p s o Q) (ho : OwnOK s o) {a : A}
    {s' : Heap} (hr : p.run s = .ok (a, s')) : ∃ o', OwnLe s o s' o' ∧ OwnOK s' o' ∧ Q s' o' a := by
  induction p generalizing s o with
  | ret b => cases hr; exact ⟨o, .refl _ _, ho, h⟩
  | panic e => cases hr
  | alloc k ih =>
    obtain ⟨o1, h1, h2, h3⟩ := h
    obtain ⟨o2, g1, g2, g3⟩ := ih _ h3 h2 hr
    exact ⟨o2, h1.trans g1, g2, g3⟩
  | read b k ih => exact ih _ h ho hr
  | write b v k ih =>
    obtain ⟨h1, h2, h3⟩ := h
    obtain ⟨o2, g1, g2, g3⟩ := ih h3 h2 hr
    exact ⟨o2, h1.trans g1, g2, g3⟩

theorem Tri.stop {p : Prog CellId A} {s : Heap} {o : Owner} (h : Tri p s o Q) (ho : OwnOK s o) :
    ∃ o', OwnLe s o (p.stop s) o' ∧ OwnOK (p.stop s) o' := by
  induction p generalizing s o with
  | ret b => exact ⟨o, .refl _ _, ho⟩
  | panic e => exact ⟨o, .refl _ _, ho⟩
  | alloc k ih =>
    obtain ⟨o1, h1, h2, h3⟩ := h
    obtain ⟨o2, g1, g2⟩ := ih _ h3 h2
    exact ⟨o2, h1.trans g1, g2⟩
  | read b k ih => exact ih _ h ho
  | write b v k ih =>
    obtain ⟨h1, h2, h3⟩ := h
    obtain ⟨o2, g1, g2⟩ := ih h3 h2
    exact ⟨o2, h1.trans g1, g2⟩

theorem Tri.bind {p : Prog CellId A} {s : Heap} {o : Owner} {f : A → Prog CellId B}
    {Q' : Heap → Owner → B → Prop} (h : Tri p s o Q) (ho : OwnOK s o)
    (hf : ∀ s' o' a, OwnLe s o s' o' → OwnOK s' o' → Q s' o' a → Tri (f a) s' o' Q') :
    Tri (p >>= f) s o Q' := by
  induction p generalizing s o with
  | ret b => exact hf s o b (.refl _ _) ho h
  | panic e => exact trivial
  | alloc k ih =>
    obtain ⟨o1, h1, h2, h3⟩ := h
    exact ⟨o1, h1, h2, ih _ h3 h2 fun s' o' a h4 => hf s' o' a (h1.trans h4)⟩
  | read b k ih => exact ih _ h ho hf
  | write b v k ih =>
    obtain ⟨h1, h2, h3⟩ := h
    exact ⟨h1, h2, ih h3 h2 fun s' o' a h4 => hf s' o' a (h1.trans h4)⟩

theorem Tri.mono {p : Prog CellId A} {s : Heap} {o : Owner} {Q' : Heap → Owner → A → Prop}
    (h : Tri p s o Q) (ho : OwnOK s o)
    (hf : ∀ s' o' a, OwnLe s o s' o' → OwnOK s' o' → Q s' o' a → Q' s' o' a) : Tri p s o Q' := by
  induction p generalizing s o with
  | ret b => exact hf s o b (.refl _ _) ho h
  | panic e => exact trivial
  | alloc k ih =>
    obtain ⟨o1, h1, h2, h3⟩ := h
    exact ⟨o1, h1, h2, ih _ h3 h2 fun s' o' a h4 => hf s' o' a (h1.trans h4)⟩
  | read b k ih => exact ih _ h ho hf
  | write b v k ih =>
    obtain ⟨h1, h2, h3⟩ := h
    exact ⟨h1, h2, ih h3 h2 fun s' o' a h4 => hf s' o' a (h1.trans h4)⟩

/-- A stateless step. -/
theorem Tri.lift {r : R A} {s : Heap} {o : Owner} {f : A → Prog CellId B}
    {Q' : Heap → Owner → B → Prop} (hf : ∀ a, r = .ok a → Tri (f a) s o Q') :
    Tri (Prog.lift r >>= f) s o Q' := by
  cases r with
  | ok a => exact hf a rfl
  | error e => exact trivial

theorem Tri.pure_bind {a : A} {s : Heap} {o : Owner} {f : A → Prog CellId B}
    {Q' : Heap → Owner → B → Prop} (h : Tri (f a) s o Q') :
    Tri ((Pure.pure a : Prog CellId A) >>= f) s o Q' := h

end

/-! ### New nodes -/

theorem ownLe_alloc (ho : OwnOK s o) (x : Option (Trie CellId)) :
    OwnLe s o (TrieKind.alloc (α := CellId) s).2 (upd o s.next x) := by
  refine ⟨Nat.le_succ _, fun {c u} h => ?_, fun {c} h e => ?_, fun {c u} h e => ?_⟩
  · rw [upd_other _ _ (Nat.ne_of_lt (ho.lt h))]; exact h
  · rw [upd_other _ _ (Nat.ne_of_lt h)]; exact e
  · show upd s.cell s.next none c ≠ none
    rw [upd_other _ _ (Nat.ne_of_lt (ho.lt h))]
    exact e

theorem ownOK_alloc (ho : OwnOK s o) {x : Option (Trie CellId)}
    (hx : ∀ u, x = some u → KidsOwned o u ∧ u.ann.id = s.next) :
    OwnOK (TrieKind.alloc (α := CellId) s).2 (upd o s.next x) := by
  have hl := ownLe_alloc ho x
  refine ⟨fun {c u} h => ?_, fun {c u} h => ?_, fun {c u} h => ?_, fun {c u} h e => ?_⟩
  · by_cases hc : c = s.next
    · subst hc; exact Nat.lt_succ_self _
    · rw [upd_other _ _ hc] at h
      exact Nat.lt_succ_of_lt (ho.lt h)
  · by_cases hc : c = s.next
    · subst hc
      rw [upd_same] at h
      exact (hx u h).1.le hl
    · rw [upd_other _ _ hc] at h
      exact (ho.kids h).le hl
  · by_cases hc : c = s.next
    · subst hc
      rw [upd_same] at h
      exact (hx u h).2
    · rw [upd_other _ _ hc] at h
      exact ho.ann h
  · by_cases hc : c = s.next
    · subst hc
      exact absurd (upd_same _ _ _) e
    · rw [upd_other _ _ hc] at h
      replace e : upd s.cell s.next none c ≠ none := e
      rw [upd_other _ _ hc] at e
      refine (ho.hot h e).mono hl ho ?_
      unfold Owned
      rw [ho.ann h]
      exact h

/-- The root of a trie of the program: its cell belongs to no node. -/
structure RootOK (s : Heap) (o : Owner) (t : Trie CellId) : Prop where
  kids : KidsOwned o t
  none : o t.ann.id = none
  lt : t.ann.id < s.next

theorem RootOK.le (h : RootOK s o t) (hl : OwnLe s o s' o') : RootOK s' o' t :=
  ⟨h.kids.le hl, hl.none h.lt h.none, Nat.lt_of_lt_of_le h.lt hl.next⟩

/-- A node or a root. -/
def MadeOK (root : Bool) (s : Heap) (o : Owner) (t : Trie CellId) : Prop :=
  match root with
  | true => RootOK s o t
  | false => Owned o t

theorem MadeOK.le {root : Bool} (h : MadeOK root s o t) (hl : OwnLe s o s' o') : MadeOK root s' o' t := by
  cases root with
  | true => exact RootOK.le h hl
  | false => exact Owned.le h hl

theorem Tri.made (root : Bool) {f : CellId → Trie CellId} (ho : OwnOK s o) (ha : ∀ a, (f a).ann = a)
    (hk : ∀ a, KidsOwned o (f a)) {Q : Heap → Owner → Trie CellId → Prop}
    (hQ : ∀ s' o' a, OwnLe s o s' o' → OwnOK s' o' → MadeOK root s' o' (f a) → Q s' o' (f a)) :
    Tri (.alloc fun a => .ret (f a)) s o Q := by
  have hn : o s.next = none := by
    cases e : o s.next with
    | none => rfl
    | some u => exact absurd (ho.lt e) (Nat.lt_irrefl _)
  let x : Option (Trie CellId) := if root then none else some (f ⟨s.next⟩)
  have hl := ownLe_alloc ho x
  have hok : OwnOK (TrieKind.alloc (α := CellId) s).2 (upd o s.next x) := by
    refine ownOK_alloc ho fun u hu => ?_
    cases root with
    | true => exact nomatch (show (none : Option (Trie CellId)) = some u from hu)
    | false => cases (show some (f ⟨s.next⟩) = some u from hu); exact ⟨hk _, by rw [ha]⟩
  refine ⟨upd o s.next x, hl, hok, hQ _ _ _ hl hok ?_⟩
  cases root with
  | true =>
    refine ⟨(hk _).le hl, ?_, ?_⟩
    · rw [ha]; exact upd_same _ _ _
    · rw [ha]; exact Nat.lt_succ_self _
  | false =>
    show upd o s.next x (f ⟨s.next⟩).ann.id = some (f ⟨s.next⟩)
    rw [ha]
    exact upd_same _ _ _

/-- Emptying the cell of a root. -/
theorem own_root {a : CellId} (ho : OwnOK s o) (ha : o a.id = none) (v : Option H256) :
    OwnLe s o (TrieKind.cacheSet a v s) o ∧ OwnOK (TrieKind.cacheSet a v s) o := by
  have hl : OwnLe s o (TrieKind.cacheSet a v s) o := by
    refine ⟨Nat.le_refl _, fun h => h, fun _ h => h, fun {c u} h e => ?_⟩
    have hc : c ≠ a.id := by
      rintro rfl
      rw [ha] at h
      cases h
    show upd s.cell a.id v c ≠ none
    rw [upd_other _ _ hc]
    exact e
  refine ⟨hl, ho.lt, ho.kids, ho.ann, fun {c u} h e => ?_⟩
  have hc : c ≠ a.id := by
    rintro rfl
    rw [ha] at h
    cases h
  replace e : upd s.cell a.id v c ≠ none := e
  rw [upd_other _ _ hc] at e
  refine (ho.hot h e).mono hl ho ?_
  unfold Owned
  rw [ho.ann h]
  exact h

/-- Filling the cell of a node whose children are hot. -/
theorem own_fill {x : H256} (ho : OwnOK s o) (ht : Owned o t) (hk : ∀ v ∈ t.kids, v.Hot s) :
    OwnLe s o (TrieKind.cacheSet t.ann (some x) s) o ∧ OwnOK (TrieKind.cacheSet t.ann (some x) s) o ∧
      t.Hot (TrieKind.cacheSet t.ann (some x) s) := by
  have hl : OwnLe s o (TrieKind.cacheSet t.ann (some x) s) o := by
    refine ⟨Nat.le_refl _, fun h => h, fun _ h => h, fun {c u} h e => ?_⟩
    show upd s.cell t.ann.id (some x) c ≠ none
    by_cases hc : c = t.ann.id
    · subst hc; rw [upd_same]; simp
    · rw [upd_other _ _ hc]; exact e
  have hot : t.Hot (TrieKind.cacheSet t.ann (some x) s) := by
    refine .full ?_ fun v hv => (hk v hv).mono hl ho (ht.kids ho v hv)
    show upd s.cell t.ann.id (some x) t.ann.id ≠ none
    rw [upd_same]; simp
  refine ⟨hl, ⟨ho.lt, ho.kids, ho.ann, fun {c u} h e => ?_⟩, hot⟩
  by_cases hc : c = t.ann.id
  · subst hc
    rw [show o t.ann.id = some t from ht] at h
    cases h
    exact hot
  · replace e : upd s.cell t.ann.id (some x) c ≠ none := e
    rw [upd_other _ _ hc] at e
    refine (ho.hot h e).mono hl ho ?_
    unfold Owned
    rw [ho.ann h]
    exact h

end EthTrie
