import Verif.Trie.Sim

/-!
# The two trie types satisfy the laws used in the refinement proofs
-/

namespace EthTrie

open Nibbles Spec

/-- The trie types of the crate: `StandardTrie` and `HashedPartialTrie`
(`src/partial_trie.rs:193-197, 284-291`). -/
inductive Kind where
  | standard
  | hashed
  deriving DecidableEq

/-- What a wrapper of this type stores next to its node (`src/partial_trie.rs:197, 288-291`). -/
@[reducible] def Kind.Ann : Kind → Type
  | .standard => Unit
  | .hashed => CellId

/-- The state shared by all tries of this type (`src/partial_trie.rs:288-291`). -/
@[reducible] def Kind.State : Kind → Type
  | .standard => Unit
  | .hashed => Heap

/-- The state of a fresh process (`src/partial_trie.rs:288-291`). -/
def Kind.init : (K : Kind) → K.State
  | .standard => ()
  | .hashed => Heap.init

instance Kind.trieKind : (K : Kind) → TrieKind K.Ann K.State
  | .standard => inferInstanceAs (TrieKind Unit Unit)
  | .hashed => inferInstanceAs (TrieKind CellId Heap)

variable (kec : Bytes → H256)

instance lawsUnit : KindLaws kec Unit Unit where
  W := Unit
  st := fun _ => ()
  slot := fun _ _ _ => True
  le := fun _ _ => True
  ole := fun _ _ => True
  le_refl := fun _ => trivial
  le_trans := fun _ _ => trivial
  ole_of_le := fun _ => trivial
  ole_trans := fun _ _ => trivial
  slot_mono := fun _ _ => trivial
  le_cell := fun _ _ => rfl
  le_new := fun _ _ => .inl trivial
  alloc_ok := fun _ _ => ⟨(), trivial, rfl, trivial, rfl⟩
  slot_alloc := fun _ _ => ⟨none, trivial⟩
  get_ok := fun _ h => by cases h
  set_ok := fun _ _ => ⟨(), trivial, rfl⟩
  set_root := fun _ _ => ⟨(), trivial, rfl⟩
  ole_new := fun _ _ _ _ _ => trivial
  real := False
  not_real := fun _ _ _ => rfl
  fresh := fun h => h.elim
  get_set_ne := fun _ _ _ => rfl
  get_set := fun h => h.elim

/-- Worlds for `HashedPartialTrie`: a heap and the owner of every cell, such that the hashes in
cells of inner nodes are right. -/
structure HW where
  heap : Heap
  own : Nat → Option LNode
  ok : ∀ c h l, heap.cell c = some h → own c = some l → l.enc kec = .hashed h

instance lawsHashed : KindLaws kec CellId Heap where
  W := HW kec
  st := HW.heap
  slot := fun w a o => a.id < w.heap.next ∧ w.own a.id = o
  le := fun w w' => w.heap.next ≤ w'.heap.next ∧ (∀ c, c < w.heap.next →
      w'.own c = w.own c ∧ (w.own c = none → w'.heap.cell c = w.heap.cell c)) ∧
    ∀ c, w.heap.next ≤ c → c < w'.heap.next → w'.own c = none → w'.heap.cell c = none
  ole := fun w w' => w.heap.next ≤ w'.heap.next ∧ ∀ c, c < w.heap.next → w'.own c = w.own c
  le_refl := fun w => ⟨Nat.le_refl _, fun _ _ => ⟨rfl, fun _ => rfl⟩, fun _ h1 h2 => by omega⟩
  le_trans := by
    rintro w1 w2 w3 ⟨h1, h2, h5⟩ ⟨h3, h4, h6⟩
    refine ⟨Nat.le_trans h1 h3, fun c hc => ?_, fun c hc hc' ho => ?_⟩
    · have h2c := h2 c hc
      have h4c := h4 c (Nat.lt_of_lt_of_le hc h1)
      exact ⟨h4c.1.trans h2c.1, fun h => (h4c.2 (h2c.1.trans h)).trans (h2c.2 h)⟩
    · by_cases e : c < w2.heap.next
      · have h4c := h4 c e
        have ho' := h4c.1.symm.trans ho
        exact (h4c.2 ho').trans (h5 c hc e ho')
      · exact h6 c (Nat.le_of_not_lt e) hc' ho
  ole_of_le := fun h => ⟨h.1, fun c hc => (h.2.1 c hc).1⟩
  ole_trans := fun h1 h2 => ⟨Nat.le_trans h1.1 h2.1, fun c hc =>
    (h2.2 c (Nat.lt_of_lt_of_le hc h1.1)).trans (h1.2 c hc)⟩
  slot_mono := fun h hs => ⟨Nat.lt_of_lt_of_le hs.1 h.1, (h.2 _ hs.1).trans hs.2⟩
  le_cell := fun h hs => (h.2.1 _ hs.1).2 hs.2
  le_new := by
    intro w w' a h hs
    by_cases e : a.id < w.heap.next
    · exact .inl ⟨e, (h.2.1 _ e).1.symm.trans hs.2⟩
    · exact .inr (h.2.2 _ (Nat.le_of_not_lt e) hs.1 hs.2)
  alloc_ok := by
    intro w o
    refine ⟨⟨⟨w.heap.next + 1, upd w.heap.cell w.heap.next none⟩, upd w.own w.heap.next o, ?_⟩,
      ⟨Nat.le_succ _, ?_, ?_⟩, rfl, ⟨Nat.lt_succ_self _, upd_same _ _ _⟩, upd_same _ _ _⟩
    · intro c h l hc ho
      by_cases e : c = w.heap.next
      · subst e; simp at hc
      · simp only [upd_other _ _ e] at hc ho
        exact w.ok c h l hc ho
    · intro c hc
      have e : c ≠ w.heap.next := Nat.ne_of_lt hc
      simp only [upd_other _ _ e]
      exact ⟨trivial, fun _ => trivial⟩
    · intro c h1 h2 _
      have e : c = w.heap.next := Nat.le_antisymm (Nat.le_of_lt_succ h2) h1
      subst e
      exact upd_same _ _ _
  slot_alloc := by
    intro w s h
    refine ⟨_, ?_, rfl⟩
    rw [h]
    exact Nat.lt_succ_self _
  get_ok := fun {w a l h} hs hg => w.ok a.id h l hg hs.2
  set_ok := by
    intro w a l h hs he
    refine ⟨⟨⟨w.heap.next, upd w.heap.cell a.id (some h)⟩, w.own, ?_⟩,
      ⟨Nat.le_refl _, ?_, fun _ h1 h2 => absurd h2 (Nat.not_lt.mpr h1)⟩, rfl⟩
    · intro c h' l' hc ho
      by_cases e : c = a.id
      · subst e
        rw [hs.2] at ho
        cases ho
        simp only [upd_same] at hc
        cases hc
        exact he
      · simp only [upd_other _ _ e] at hc
        exact w.ok c h' l' hc ho
    · intro c hc
      refine ⟨rfl, fun ho => ?_⟩
      have e : c ≠ a.id := by
        rintro rfl
        rw [hs.2] at ho
        cases ho
      simp only [upd_other _ _ e]
  set_root := by
    intro w a v hs
    refine ⟨⟨⟨w.heap.next, upd w.heap.cell a.id v⟩, w.own, ?_⟩,
      ⟨Nat.le_refl _, fun _ _ => rfl⟩, rfl⟩
    intro c h' l' hc ho
    by_cases e : c = a.id
    · subst e
      rw [hs.2] at ho
      cases ho
    · simp only [upd_other _ _ e] at hc
      exact w.ok c h' l' hc ho
  ole_new := by
    intro w w' a o b v h1 h2 h3
    have e : w'.heap.next = w.heap.next := by rw [h2]; rfl
    have h4 := h3.1
    rw [e] at h4
    exact ⟨h4, (h1.2 _ h4).symm.trans h3.2⟩
  real := True
  not_real := fun h => (h trivial).elim
  fresh := by
    intro w b o _ hs e
    have : b.id = w.heap.next := by rw [← e]; rfl
    have := hs.1
    omega
  get_set_ne := by
    intro a b v s h
    have : b.id ≠ a.id := fun e => h (by cases a; cases b; simp_all)
    exact upd_other _ _ this
  get_set := fun _ _ _ _ => upd_same _ _ _

instance Kind.laws : (K : Kind) → KindLaws kec K.Ann K.State
  | .standard => lawsUnit kec
  | .hashed => lawsHashed kec

/-- The world of a fresh process. -/
def Kind.initW : (K : Kind) → (Kind.laws kec K).W
  | .standard => ()
  | .hashed => ⟨Heap.init, fun _ => none, fun _ _ _ h => by cases h⟩

theorem Kind.st_initW (K : Kind) : (Kind.laws kec K).st (K.initW kec) = K.init := by
  cases K <;> rfl

end EthTrie
