import Verif.Trie.LNode
import Verif.Nibbles.Lemmas2
import Verif.Nibbles.Lemmas3

/-!
# The model refines the list-keyed tries

A *world* is a state together with the knowledge which node each cache cell belongs to.  The
relation `Rep w t l` says that `t` is `l` up to the representation of keys, and that the cells of
`t` belong to the corresponding nodes of `l`.
-/

namespace EthTrie

open Nibbles Spec

/-- What the proofs need to know about a trie type. -/
class KindLaws (kec : Bytes → H256) (α : Type) (S : outParam Type) [K : TrieKind α S] where
  /-- worlds -/
  W : Type
  /-- state of a world -/
  st : W → S
  /-- `slot w a (some l)`: the cell `a` belongs to an inner node `l`; `slot w a none`: the cell
  belongs to the root of a trie owned by the user -/
  slot : W → α → Option LNode → Prop
  /-- a later world, with the contents of root cells unchanged -/
  le : W → W → Prop
  /-- a later world -/
  ole : W → W → Prop
  le_refl : ∀ w, le w w
  le_trans : ∀ {w1 w2 w3}, le w1 w2 → le w2 w3 → le w1 w3
  ole_of_le : ∀ {w w'}, le w w' → ole w w'
  ole_trans : ∀ {w1 w2 w3}, ole w1 w2 → ole w2 w3 → ole w1 w3
  slot_mono : ∀ {w w' a o}, ole w w' → slot w a o → slot w' a o
  le_cell : ∀ {w w' a}, le w w' → slot w a none → K.cacheGet a (st w') = K.cacheGet a (st w)
  le_new : ∀ {w w' a}, le w w' → slot w' a none → slot w a none ∨ K.cacheGet a (st w') = none
  alloc_ok : ∀ w o, ∃ w', le w w' ∧ st w' = (K.alloc (st w)).2 ∧ slot w' (K.alloc (st w)).1 o ∧
    K.cacheGet (K.alloc (st w)).1 (st w') = none
  slot_alloc : ∀ {w} s, st w = (K.alloc s).2 → ∃ o, slot w (K.alloc s).1 o
  get_ok : ∀ {w a l h}, slot w a (some l) → K.cacheGet a (st w) = some h → l.enc kec = .hashed h
  set_ok : ∀ {w a l h}, slot w a (some l) → l.enc kec = .hashed h →
    ∃ w', le w w' ∧ st w' = K.cacheSet a (some h) (st w)
  set_root : ∀ {w a} v, slot w a none → ∃ w', ole w w' ∧ st w' = K.cacheSet a v (st w)
  ole_new : ∀ {w w' a o} b v, ole w w' → st w' = K.cacheSet b v (st w) → slot w' a o → slot w a o
  /-- whether there are cells at all -/
  real : Prop
  not_real : ¬ real → ∀ a s, K.cacheGet a s = none
  fresh : ∀ {w b o}, real → slot w b o → (K.alloc (st w)).1 ≠ b
  get_set_ne : ∀ {a b} v s, b ≠ a → K.cacheGet b (K.cacheSet a v s) = K.cacheGet b s
  get_set : real → ∀ a v s, K.cacheGet a (K.cacheSet a v s) = v

theorem KindLaws.get_set_none {kec : Bytes → H256} {α S : Type} [K : TrieKind α S]
    (L : KindLaws kec α S) (a : α) (s : S) : K.cacheGet a (K.cacheSet a none s) = none := by
  by_cases h : L.real
  · exact L.get_set h a none s
  · exact L.not_real h _ _

section
variable (kec : Bytes → H256) {α S : Type} [K : TrieKind α S] [L : KindLaws kec α S]

/-- Representation of a node, not counting ownership of its own cell. -/
inductive RepN (w : L.W) : Trie α → LNode → Prop
  | empty (a : α) : RepN w (.empty a) .empty
  | hash (a : α) (h : H256) : RepN w (.hash a h) (.hash h)
  | branch (a : α) (cs : Fin 16 → Trie α) (lcs : Fin 16 → LNode) (v : Bytes)
      (h : ∀ i, RepN w (cs i) (lcs i)) (ho : ∀ i, L.slot w (cs i).ann (some (lcs i))) :
      RepN w (.branch a cs v) (.branch lcs v)
  | ext (a : α) (k : Key) (c : Trie α) (lc : LNode) (hk : k.length ≤ 128)
      (h : RepN w c lc) (ho : L.slot w c.ann (some lc)) : RepN w (.ext a (ofList k) c) (.ext k lc)
  | leaf (a : α) (k : Key) (v : Bytes) (hk : k.length ≤ 128) :
      RepN w (.leaf a (ofList k) v) (.leaf k v)

/-- Representation of a node and ownership of all cells. -/
def Rep (w : L.W) (t : Trie α) (l : LNode) : Prop := RepN kec w t l ∧ L.slot w t.ann (some l)

variable {kec}

theorem RepN.omono {w w' : L.W} (hle : L.ole w w') {t : Trie α} {l : LNode} (h : RepN kec w t l) :
    RepN kec w' t l := by
  induction h with
  | empty a => exact .empty a
  | hash a h => exact .hash a h
  | branch a cs lcs v h ho ih => exact .branch a cs lcs v ih fun i => L.slot_mono hle (ho i)
  | ext a k c lc hk h ho ih => exact .ext a k c lc hk ih (L.slot_mono hle ho)
  | leaf a k v hk => exact .leaf a k v hk

theorem RepN.mono {w w' : L.W} (hle : L.ole w w') {t : Trie α} {l : LNode} (h : RepN kec w t l) :
    RepN kec w' t l := h.omono hle

theorem Rep.mono {w w' : L.W} (hle : L.ole w w') {t : Trie α} {l : LNode} (h : Rep kec w t l) :
    Rep kec w' t l := ⟨h.1.mono hle, L.slot_mono hle h.2⟩

theorem RepN.setAnn {w : L.W} {t : Trie α} {l : LNode} (h : RepN kec w t l) (b : α) :
    RepN kec w (t.setAnn b) l := by
  cases h with
  | empty a => exact .empty b
  | hash a h => exact .hash b h
  | branch a cs lcs v h ho => exact .branch b cs lcs v h ho
  | ext a k c lc hk h ho => exact .ext b k c lc hk h ho
  | leaf a k v hk => exact .leaf b k v hk

@[simp] theorem ann_setAnn (t : Trie α) (b : α) : (t.setAnn b).ann = b := by cases t <;> rfl

theorem RepN.isEmpty {w : L.W} {t : Trie α} {l : LNode} (h : RepN kec w t l) :
    nodeIsEmpty t = l.isEmpty := by
  cases h <;> rfl

/-! ### Simulation -/

/-- `m`, started in world `w`, does what `r` says, with results related by `Q`, whatever other
threads do to the cells in the meantime (as long as the worlds of its steps are later and later
ones).  Its own steps leave the cells of roots alone. -/
def Sim {A B : Type} (kec : Bytes → H256) [L : KindLaws kec α S] :
    L.W → Prog α A → R B → (L.W → A → B → Prop) → Prop
  | w, .ret a, r, Q => ∃ b, r = .ok b ∧ Q w a b
  | _, .panic e, r, _ => r = .error e
  | w, .alloc k, r, Q => ∀ w', L.ole w w' → ∃ w'', L.le w' w'' ∧
    L.st w'' = (K.alloc (L.st w')).2 ∧ Sim kec w'' (k (K.alloc (L.st w')).1) r Q
  | w, .read a k, r, Q => ∀ w', L.ole w w' → Sim kec w' (k (K.cacheGet a (L.st w'))) r Q
  | w, .write a v k, r, Q => ∀ w', L.ole w w' → ∃ w'', L.le w' w'' ∧
    L.st w'' = K.cacheSet a v (L.st w') ∧ Sim kec w'' k r Q

theorem ole_refl (w : L.W) : L.ole w w := L.ole_of_le (L.le_refl w)

/-- Without other threads. -/
theorem Sim.run {A B : Type} {w : L.W} {m : Prog α A} {r : R B} {Q : L.W → A → B → Prop}
    (h : Sim kec w m r Q) :
    match (generalizing := false) r with
    | .error e => m.run (L.st w) = .error e
    | .ok b => ∃ a w', m.run (L.st w) = .ok (a, L.st w') ∧ L.le w w' ∧ Q w' a b := by
  induction m generalizing w with
  | ret a =>
    obtain ⟨b, rfl, hq⟩ := h
    exact ⟨a, w, rfl, L.le_refl w, hq⟩
  | panic e =>
    have h : r = .error e := h
    subst h
    rfl
  | alloc k ih =>
    obtain ⟨w1, h1, h2, h3⟩ := h w (ole_refl w)
    have := ih _ h3
    rw [h2] at this
    cases r with
    | error e => exact this
    | ok b =>
      obtain ⟨a, w2, g1, g2, g3⟩ := this
      exact ⟨a, w2, g1, L.le_trans h1 g2, g3⟩
  | read a k ih => exact ih _ (h w (ole_refl w))
  | write a v k ih =>
    obtain ⟨w1, h1, h2, h3⟩ := h w (ole_refl w)
    have := ih h3
    rw [h2] at this
    cases r with
    | error e => exact this
    | ok b =>
      obtain ⟨a, w2, g1, g2, g3⟩ := this
      exact ⟨a, w2, g1, L.le_trans h1 g2, g3⟩

theorem Sim.bind {A B C D : Type} {w : L.W} {m : Prog α A} {r : R B} {Q : L.W → A → B → Prop}
    {f : A → Prog α C} {g : B → R D} {Q' : L.W → C → D → Prop}
    (h : Sim kec w m r Q) (hf : ∀ w' a b, L.ole w w' → Q w' a b → Sim kec w' (f a) (g b) Q') :
    Sim kec w (m >>= f) (r >>= g) Q' := by
  induction m generalizing w with
  | ret a =>
    obtain ⟨b, rfl, hq⟩ := h
    exact hf w a b (ole_refl w) hq
  | panic e =>
    have h : r = .error e := h
    subst h
    rfl
  | alloc k ih =>
    intro w' hle
    obtain ⟨w1, h1, h2, h3⟩ := h w' hle
    exact ⟨w1, h1, h2, ih _ h3 fun w'' a b h4 =>
      hf w'' a b (L.ole_trans hle (L.ole_trans (L.ole_of_le h1) h4))⟩
  | read a k ih =>
    intro w' hle
    exact ih _ (h w' hle) fun w'' a b h4 => hf w'' a b (L.ole_trans hle h4)
  | write a v k ih =>
    intro w' hle
    obtain ⟨w1, h1, h2, h3⟩ := h w' hle
    exact ⟨w1, h1, h2, ih h3 fun w'' a b h4 =>
      hf w'' a b (L.ole_trans hle (L.ole_trans (L.ole_of_le h1) h4))⟩

theorem Sim.pure {A B : Type} {w : L.W} {a : A} {b : B} {Q : L.W → A → B → Prop} (h : Q w a b) :
    Sim kec w (Pure.pure a : Prog α A) (.ok b) Q := ⟨b, rfl, h⟩

theorem Sim.panic {A B : Type} {w : L.W} {e : Panic} {Q : L.W → A → B → Prop} :
    Sim kec w (Prog.panic e : Prog α A) (.error e : R B) Q := rfl

/-- A stateless step that succeeds. -/
theorem Sim.lift_bind {A C D : Type} {w : L.W} {r : R A} {a : A} {f : A → Prog α C} {g : R D}
    {Q : L.W → C → D → Prop} (h : r = .ok a) (hf : Sim kec w (f a) g Q) :
    Sim kec w (Prog.lift r >>= f) g Q := by
  subst h
  exact hf

theorem Sim.lift_bind_err {A C D : Type} {w : L.W} {r : R A} {e : Panic} {f : A → Prog α C}
    {Q : L.W → C → D → Prop} (h : r = .error e) :
    Sim kec w (Prog.lift r >>= f) (.error e : R D) Q := by
  subst h
  rfl

theorem Sim.pure_bind {A C D : Type} {w : L.W} {a : A} {f : A → Prog α C} {g : R D}
    {Q : L.W → C → D → Prop} (hf : Sim kec w (f a) g Q) :
    Sim kec w ((Pure.pure a : Prog α A) >>= f) g Q := hf

theorem Sim.mono {A B : Type} {w : L.W} {m : Prog α A} {r : R B} {Q Q' : L.W → A → B → Prop}
    (h : Sim kec w m r Q) (hq : ∀ w' a b, L.ole w w' → Q w' a b → Q' w' a b) :
    Sim kec w m r Q' := by
  induction m generalizing w with
  | ret a =>
    obtain ⟨b, rfl, h⟩ := h
    exact ⟨b, rfl, hq w a b (ole_refl w) h⟩
  | panic e => exact h
  | alloc k ih =>
    intro w' hle
    obtain ⟨w1, h1, h2, h3⟩ := h w' hle
    exact ⟨w1, h1, h2, ih _ h3 fun w'' a b h4 =>
      hq w'' a b (L.ole_trans hle (L.ole_trans (L.ole_of_le h1) h4))⟩
  | read a k ih =>
    intro w' hle
    exact ih _ (h w' hle) fun w'' a b h4 => hq w'' a b (L.ole_trans hle h4)
  | write a v k ih =>
    intro w' hle
    obtain ⟨w1, h1, h2, h3⟩ := h w' hle
    exact ⟨w1, h1, h2, ih h3 fun w'' a b h4 =>
      hq w'' a b (L.ole_trans hle (L.ole_trans (L.ole_of_le h1) h4))⟩

/-- Bind where the right-hand side needs no monadic step for the first part. -/
theorem Sim.bind_ok {A B C D : Type} {w : L.W} {m : Prog α A} {b : B} {Q : L.W → A → B → Prop}
    {f : A → Prog α C} {g : R D} {Q' : L.W → C → D → Prop}
    (h : Sim kec w m (.ok b) Q) (hf : ∀ w' a, L.ole w w' → Q w' a b → Sim kec w' (f a) g Q') :
    Sim kec w (m >>= f) g Q' := by
  induction m generalizing w with
  | ret a =>
    obtain ⟨b', hb, hq⟩ := h
    cases hb
    exact hf w a (ole_refl w) hq
  | panic e => cases (show (Except.ok b : R B) = .error e from h)
  | alloc k ih =>
    intro w' hle
    obtain ⟨w1, h1, h2, h3⟩ := h w' hle
    exact ⟨w1, h1, h2, ih _ h3 fun w'' a h4 =>
      hf w'' a (L.ole_trans hle (L.ole_trans (L.ole_of_le h1) h4))⟩
  | read a k ih =>
    intro w' hle
    exact ih _ (h w' hle) fun w'' a h4 => hf w'' a (L.ole_trans hle h4)
  | write a v k ih =>
    intro w' hle
    obtain ⟨w1, h1, h2, h3⟩ := h w' hle
    exact ⟨w1, h1, h2, ih h3 fun w'' a h4 =>
      hf w'' a (L.ole_trans hle (L.ole_trans (L.ole_of_le h1) h4))⟩

/-- Bind where the first part panics. -/
theorem Sim.bind_err {A B C D : Type} {w : L.W} {m : Prog α A} {e : Panic}
    {Q : L.W → A → B → Prop} {f : A → Prog α C} {Q' : L.W → C → D → Prop}
    (h : Sim kec w m (.error e) Q) : Sim kec w (m >>= f) (.error e) Q' := by
  induction m generalizing w with
  | ret a =>
    obtain ⟨b, hb, -⟩ := h
    cases hb
  | panic e' =>
    cases (show (Except.error e : R B) = .error e' from h)
    rfl
  | alloc k ih =>
    intro w' hle
    obtain ⟨w1, h1, h2, h3⟩ := h w' hle
    exact ⟨w1, h1, h2, ih _ h3⟩
  | read a k ih => exact fun w' hle => ih _ (h w' hle)
  | write a v k ih =>
    intro w' hle
    obtain ⟨w1, h1, h2, h3⟩ := h w' hle
    exact ⟨w1, h1, h2, ih h3⟩

/-! ### Allocation -/

/-- A new node. -/
theorem sim_alloc {A B : Type} {w : L.W} {k : α → A} {b : B} {Q : L.W → A → B → Prop}
    (o : Option LNode) (h : ∀ w' w'' a, L.ole w w' → L.le w' w'' → L.slot w'' a o →
      K.cacheGet a (L.st w'') = none → Q w'' (k a) b) :
    Sim kec w (.alloc fun a => .ret (k a)) (.ok b) Q := by
  intro w' hle
  obtain ⟨w'', h1, h2, h3, h4⟩ := L.alloc_ok w' o
  exact ⟨w'', h1, h2, b, rfl, h w' w'' _ hle h1 h3 h4⟩

theorem sim_newEmpty (w : L.W) :
    Sim kec w (newEmpty : Prog α (Trie α)) (.ok .empty) (Rep kec) :=
  sim_alloc (some .empty) fun _ _ _ _ _ h _ => ⟨.empty _, h⟩

theorem sim_newHash (w : L.W) (h : H256) :
    Sim kec w (newHash h : Prog α (Trie α)) (.ok (.hash h)) (Rep kec) :=
  sim_alloc (some (.hash h)) fun _ _ _ _ _ h _ => ⟨.hash _ _, h⟩

theorem sim_newBranch {w : L.W} {cs : Fin 16 → Trie α} {lcs : Fin 16 → LNode} {v : Bytes}
    (h : ∀ i, Rep kec w (cs i) (lcs i)) :
    Sim kec w (newBranch cs v : Prog α (Trie α)) (.ok (.branch lcs v)) (Rep kec) :=
  sim_alloc (some (.branch lcs v)) fun _ _ _ h0 h1 h3 _ =>
    have h1 := L.ole_trans h0 (L.ole_of_le h1)
    ⟨.branch _ _ _ _ (fun i => ((h i).mono h1).1) (fun i => ((h i).mono h1).2), h3⟩

theorem sim_newExt {w : L.W} {n : Nibbles} {k : Key} {c : Trie α} {lc : LNode}
    (hn : n = ofList k) (hk : k.length ≤ 128) (h : Rep kec w c lc) :
    Sim kec w (newExt n c : Prog α (Trie α)) (.ok (.ext k lc)) (Rep kec) := by
  subst hn
  exact sim_alloc (some (.ext k lc)) fun _ _ _ h0 h1 h3 _ =>
    have h1 := L.ole_trans h0 (L.ole_of_le h1)
    ⟨.ext _ _ _ _ hk (h.mono h1).1 (h.mono h1).2, h3⟩

theorem sim_newLeaf {w : L.W} {n : Nibbles} {k : Key} {v : Bytes}
    (hn : n = ofList k) (hk : k.length ≤ 128) :
    Sim kec w (newLeaf n v : Prog α (Trie α)) (.ok (.leaf k v)) (Rep kec) := by
  subst hn
  exact sim_alloc (some (.leaf k v)) fun _ _ _ _ _ h3 _ => ⟨.leaf _ _ _ hk, h3⟩

theorem sim_createNode {w : L.W} {n : Nibbles} {k : Key} (v : ValOrHash)
    (hn : n = ofList k) (hk : k.length ≤ 128) :
    Sim kec w (createNodeFromInsertVal n v : Prog α (Trie α)) (.ok (LNode.mkNode k v))
      (Rep kec) := by
  cases v with
  | val v => exact sim_newLeaf hn hk
  | hash h =>
    simp only [createNodeFromInsertVal, hn, isEmpty_ofList]
    cases k with
    | nil => exact sim_newHash w h
    | cons d k =>
      simp only [List.isEmpty_cons, LNode.mkNode]
      exact Sim.bind_ok (sim_newHash w h) fun w' a hle hr => sim_newExt rfl hk hr

theorem sim_newEmpties (n : Nat) : ∀ (w : L.W),
    Sim kec w (newEmpties n : Prog α (List (Trie α))) (.ok ())
      (fun w' ts _ => ∀ t ∈ ts, Rep kec w' t .empty) := by
  induction n with
  | zero => intro w; exact Sim.pure (by simp)
  | succ n ih =>
    intro w
    refine Sim.bind_ok (sim_newEmpty w) fun w1 t h1 hr => ?_
    refine Sim.bind_ok (ih w1) fun w2 ts h2 hrs => ?_
    refine Sim.pure ?_
    intro t' ht'
    rcases List.mem_cons.mp ht' with h | h
    · subst h; exact hr.mono h2
    · exact hrs _ h

theorem sim_newBranchChildArr (w : L.W) :
    Sim kec w (newBranchChildArr : Prog α (Fin 16 → Trie α)) (.ok LNode.empties)
      (fun w' cs lcs => ∀ i, Rep kec w' (cs i) (lcs i)) := by
  refine Sim.bind_ok (sim_newEmpty w) fun w1 t h1 hr => ?_
  refine Sim.bind_ok (sim_newEmpties 15 w1) fun w2 ts h2 hrs => ?_
  refine Sim.pure fun i => ?_
  have hm : (t :: ts).getD i.val t ∈ t :: ts := by
    rw [List.getD_eq_getElem?_getD]
    cases h : (t :: ts)[i.val]? with
    | none => simp
    | some x => exact List.mem_of_getElem? h
  rcases List.mem_cons.mp hm with h | h
  · show Rep kec w2 _ .empty
    rw [h]; exact hr.mono h2
  · exact hrs _ h

theorem rep_upd {w : L.W} {cs : Fin 16 → Trie α} {lcs : Fin 16 → LNode} {t : Trie α} {l : LNode}
    (h : ∀ i, Rep kec w (cs i) (lcs i)) (ht : Rep kec w t l) (d : Fin 16) :
    ∀ i, Rep kec w (upd cs d t i) (upd lcs d l i) := by
  intro i
  by_cases hi : i = d
  · subst hi; simpa using ht
  · rw [upd_other _ _ hi, upd_other _ _ hi]; exact h i

theorem idx16_val (d : Fin 16) : idx16 d.val = .ok d := by
  simp [idx16]

/-! ### Insert -/

variable {P : Profile}

theorem getPreAndPostfixes_ok {a b : Key} (ha : a.length ≤ 127) (hb : b.length ≤ 127) :
    getPreAndPostfixes P (ofList a) (ofList b)
      = .ok ⟨ofList (a.take (cpl a b)), ofList (a.drop (cpl a b)), ofList (b.drop (cpl a b))⟩ := by
  have h1 := cpl_le_left a b
  have h2 := cpl_le_right a b
  simp only [getPreAndPostfixes]
  rw [findDiffDifferentLengths_ok P (by omega) (by omega) (by omega)]
  simp only [R_bind_ok]
  rw [splitAtIdx_ok P (by omega) h1 (by omega)]
  simp only [R_bind_ok]
  rw [splitAtIdxPostfix_ok P (by omega) h2 (by omega)]
  rfl

theorem getNibble_zero {d : Fin 16} {l : Key} (h : (d :: l).length ≤ 128) :
    (ofList (d :: l)).getNibble P 0 = .ok d.val := by
  rw [getNibble_ok P h (by simp)]; rfl

theorem sim_insEntry {w : L.W} {pre ep nr k : Key} {d : Fin 16} (v : ValOrHash)
    (hk : k.length ≤ 127) (hpre : pre.length ≤ 127) (hd : k.drop pre.length = d :: nr) :
    Sim kec w (insEntryIntoLeafAndNibble P ⟨ofList pre, ofList ep, ofList (d :: nr)⟩ ⟨ofList k, v⟩ :
        Prog α (Nibble × Trie α))
      (.ok (LNode.mkNode nr v)) (fun w' r l => r.1 = d.val ∧ Rep kec w' r.2 l) := by
  have hl : (d :: nr).length ≤ k.length := by
    rw [← hd, List.length_drop]; omega
  have hdr : k.drop (pre.length + 1) = nr := by
    rw [← List.drop_drop, hd]; rfl
  simp only [insEntryIntoLeafAndNibble]
  refine Sim.lift_bind (getNibble_zero (by omega)) ?_
  refine Sim.lift_bind (uadd_ok (by rw [ofList_count]; omega)) ?_
  rw [ofList_count]
  refine Sim.lift_bind (truncateFront_ok P (by omega) (by omega)) ?_
  rw [hdr]
  refine Sim.bind_ok (sim_createNode v rfl (by simp at hl; omega)) fun w' t hle hr => ?_
  exact Sim.pure ⟨rfl, hr⟩

theorem placeBranch_end {w : L.W} {pre : Key} {cs : Fin 16 → Trie α}
    {lcs : Fin 16 → LNode} {v : Bytes} (hpre : pre.length ≤ 127)
    (h : ∀ i, Rep kec w (cs i) (lcs i)) :
    Sim kec w (do
        let b ← newBranch cs v
        match (ofList pre).count with
        | 0 => return b
        | _ => newExt (ofList pre) b : Prog α (Trie α))
      (.ok (LNode.mkExt pre (.branch lcs v))) (Rep kec) := by
  refine Sim.bind_ok (sim_newBranch h) fun w' b hle hb => ?_
  cases pre with
  | nil => exact Sim.pure hb
  | cons d r => exact sim_newExt rfl (by omega) hb

/-- Both nodes become children. -/
theorem sim_placeBranch_both {w : L.W} {pre er nr k : Key} {e d : Fin 16} (v : ValOrHash)
    {t : Trie α} {l : LNode} (hk : k.length ≤ 127) (hpre : pre.length ≤ 127)
    (her : (e :: er).length ≤ 127)
    (hd : k.drop pre.length = d :: nr) (ht : Rep kec w t l) :
    Sim kec w (placeBranch P ⟨ofList pre, ofList (e :: er), ofList (d :: nr)⟩ t ⟨ofList k, v⟩ :
        Prog α (Trie α))
      (.ok (LNode.mkExt pre (.branch (upd (upd LNode.empties e l) d (LNode.mkNode nr v)) [])))
      (Rep kec) := by
  simp only [placeBranch]
  refine Sim.bind_ok (sim_newBranchChildArr w) fun w1 cs h1 hcs => ?_
  refine Sim.bind_ok (b := (upd (upd LNode.empties e l) d (LNode.mkNode nr v)))
    (Q := fun w' r (lcs : Fin 16 → LNode) => r.2 = [] ∧ ∀ i, Rep kec w' (r.1 i) (lcs i)) ?_ ?_
  · refine Sim.bind_ok (b := LNode.mkNode nr v)
      (Q := fun w' r l' => ∃ t', r = .bothChildren e.val t d.val t' ∧ Rep kec w' t' l') ?_ ?_
    · simp only [checkPlacement, ofList_count]
      refine Sim.lift_bind (getNibble_zero (by omega)) ?_
      refine Sim.bind_ok (sim_insEntry v hk hpre hd) fun w2 r h2 hr => ?_
      refine Sim.pure ⟨r.2, ?_, hr.2⟩
      rw [hr.1]
    · rintro w2 _ h2 ⟨t', rfl, hr⟩
      refine Sim.lift_bind (idx16_val e) ?_
      refine Sim.lift_bind (idx16_val d) ?_
      refine Sim.pure ⟨rfl, ?_⟩
      exact rep_upd (rep_upd (fun i => (hcs i).mono h2) ((ht.mono h1).mono h2) e) hr d
  · rintro w2 ⟨cs', v'⟩ h2 ⟨rfl, hr⟩
    exact placeBranch_end hpre hr

/-- The existing value becomes the branch value. -/
theorem sim_placeBranch_existing {w : L.W} {pre nr k : Key} {d : Fin 16} (v : ValOrHash)
    {a : α} {n : Nibbles} {x : Bytes} (hk : k.length ≤ 127) (hpre : pre.length ≤ 127)
    (hd : k.drop pre.length = d :: nr) :
    Sim kec w (placeBranch P ⟨ofList pre, ofList [], ofList (d :: nr)⟩ (.leaf a n x) ⟨ofList k, v⟩ :
        Prog α (Trie α))
      (.ok (LNode.mkExt pre (.branch (upd LNode.empties d (LNode.mkNode nr v)) x)))
      (Rep kec) := by
  simp only [placeBranch]
  refine Sim.bind_ok (sim_newBranchChildArr w) fun w1 cs h1 hcs => ?_
  refine Sim.bind_ok (b := (upd LNode.empties d (LNode.mkNode nr v)))
    (Q := fun w' r (lcs : Fin 16 → LNode) => r.2 = x ∧ ∀ i, Rep kec w' (r.1 i) (lcs i)) ?_ ?_
  · refine Sim.bind_ok (b := LNode.mkNode nr v)
      (Q := fun w' r l' => ∃ t', r = .branchValue x d.val t' ∧ Rep kec w' t' l') ?_ ?_
    · simp only [checkPlacement, ofList_count]
      refine Sim.bind_ok (sim_insEntry v hk hpre hd) fun w2 r h2 hr => ?_
      refine Sim.pure ⟨r.2, ?_, hr.2⟩
      rw [hr.1]
    · rintro w2 _ h2 ⟨t', rfl, hr⟩
      refine Sim.lift_bind (idx16_val d) ?_
      refine Sim.pure ⟨rfl, ?_⟩
      exact rep_upd (fun i => (hcs i).mono h2) hr d
  · rintro w2 ⟨cs', v'⟩ h2 ⟨rfl, hr⟩
    exact placeBranch_end hpre hr

/-- The new value becomes the branch value. -/
theorem sim_placeBranch_new {w : L.W} {pre er k : Key} {e : Fin 16} (v : ValOrHash)
    {t : Trie α} {l : LNode} (hpre : pre.length ≤ 127)
    (her : (e :: er).length ≤ 127) (ht : Rep kec w t l) :
    Sim kec w (placeBranch P ⟨ofList pre, ofList (e :: er), ofList []⟩ t ⟨ofList k, v⟩ :
        Prog α (Trie α))
      (match v with
        | .val x => .ok (LNode.mkExt pre (.branch (upd LNode.empties e l) x))
        | .hash _ => .error .expectFailed)
      (Rep kec) := by
  simp only [placeBranch]
  refine Sim.bind_ok (sim_newBranchChildArr w) fun w1 cs h1 hcs => ?_
  have hc : checkPlacement P ⟨ofList pre, ofList (e :: er), ofList []⟩ t ⟨ofList k, v⟩ =
      (do
        let v ← Prog.lift v.expectVal
        let nib ← Prog.lift ((ofList (e :: er)).getNibble P 0)
        return .branchValue v nib t : Prog α (Placement α)) := by
    cases t <;> rfl
  rw [hc]
  cases v with
  | hash h =>
    refine Sim.bind (r := .error _) (B := Unit) (Q := fun _ _ _ => False)
      (g := fun _ => .error .expectFailed) ?_ (by simp)
    rfl
  | val x =>
  refine Sim.bind_ok (b := (upd LNode.empties e l))
    (Q := fun w' r (lcs : Fin 16 → LNode) => r.2 = x ∧ ∀ i, Rep kec w' (r.1 i) (lcs i)) ?_ ?_
  · refine Sim.bind_ok (b := ())
      (Q := fun w' r _ => r = .branchValue x e.val t) ?_ ?_
    · refine Sim.lift_bind (a := x) rfl ?_
      refine Sim.lift_bind (getNibble_zero (by omega)) ?_
      exact Sim.pure rfl
    · rintro w2 _ h2 rfl
      refine Sim.lift_bind (idx16_val e) ?_
      refine Sim.pure ⟨rfl, ?_⟩
      exact rep_upd (fun i => (hcs i).mono h2) ((ht.mono h1).mono h2) e
  · rintro w2 ⟨cs', v'⟩ h2 ⟨rfl, hr⟩
    exact placeBranch_end hpre hr

theorem beq_ofList {a b : Key} (ha : a.length ≤ 128) (hb : b.length ≤ 128) :
    (ofList a == ofList b) = decide (a = b) := by
  by_cases h : a = b
  · subst h; simp
  · have : ofList a ≠ ofList b := fun h' => h (ofList_inj ha hb h')
    simp [h, this]

/-- `insert_into_trie_rec` refines insertion into list-keyed tries. -/
theorem sim_insertRec (v : ValOrHash) : ∀ (l : LNode) (t : Trie α) (w : L.W) (k : Key),
    RepN kec w t l → l.Bound 127 → k.length ≤ 127 →
    Sim kec w (insertRec P t ⟨ofList k, v⟩) (l.insert k v)
      (fun w' r l' => ∃ t', r = some t' ∧ Rep kec w' t' l') := by
  intro l
  induction l with
  | empty =>
    intro t w k ht hb hk
    cases ht
    exact Sim.bind_ok (sim_createNode v rfl (by omega)) fun w' t hle hr =>
      Sim.pure ⟨_, rfl, hr⟩
  | hash h =>
    intro t w k ht hb hk
    cases ht
    rfl
  | branch lcs x ih =>
    intro t w k ht hb hk
    cases ht with
    | branch a cs _ _ h ho =>
    cases k with
    | nil =>
      simp only [insertRec, LNode.insert, ofList_count]
      cases v with
      | val y =>
        exact Sim.bind_ok (sim_newBranch fun i => ⟨h i, ho i⟩) fun w' t hle hr =>
          Sim.pure ⟨_, rfl, hr⟩
      | hash y => rfl
    | cons d k =>
      simp only [insertRec, LNode.insert, ofList_count]
      refine Sim.lift_bind (popNextFront_ok P (by omega)) ?_
      refine Sim.lift_bind (idx16_val d) ?_
      refine Sim.bind (ih d (cs d) w k (h d) ((hb.2 d).mono (by omega))
        (by simp at hk; omega)) ?_
      rintro w1 _ l' h1 ⟨t', rfl, hr⟩
      exact Sim.bind_ok (sim_newBranch (rep_upd (fun i => Rep.mono h1 ⟨h i, ho i⟩) hr d))
        fun w' t hle hr => Sim.pure ⟨_, rfl, hr⟩
  | ext n lc ih =>
    intro t w k ht hb hk
    cases ht with
    | ext a _ c _ hn h ho =>
    have hn' : n.length ≤ 127 := hb.1
    simp only [insertRec, LNode.insert]
    refine Sim.lift_bind (getPreAndPostfixes_ok hn' hk) ?_
    refine Sim.lift_bind (identicalUpToSmallest_ok P (by omega) (by omega)) ?_
    by_cases hp : n <+: k ∨ k <+: n
    · rw [if_pos hp, if_pos (decide_eq_true hp), ofList_count]
      refine Sim.lift_bind (truncateFront_ok P (by omega) (by omega)) ?_
      refine Sim.bind (ih c w (k.drop n.length) h (hb.2.mono (by omega))
        (by simp; omega)) ?_
      rintro w1 _ l' h1 ⟨t', rfl, hr⟩
      exact Sim.bind_ok (sim_newExt rfl hn hr) fun w' t hle hr => Sim.pure ⟨_, rfl, hr⟩
    · rw [if_neg hp, if_neg (by simpa using hp)]
      have c1 := cpl_le_left n k
      have c2 := cpl_le_right n k
      cases e1 : n.drop (cpl n k) with
      | nil =>
        exfalso
        have : n.take (cpl n k) = n := by
          have := List.take_append_drop (cpl n k) n
          rwa [e1, List.append_nil] at this
        exact hp (.inl (by rw [← this, take_cpl]; exact List.take_prefix _ _))
      | cons e nr =>
      cases e2 : k.drop (cpl n k) with
      | nil =>
        exfalso
        have : k.take (cpl n k) = k := by
          have := List.take_append_drop (cpl n k) k
          rwa [e2, List.append_nil] at this
        exact hp (.inr (by rw [← this, ← take_cpl]; exact List.take_prefix _ _))
      | cons d kr =>
      have l1 := congrArg List.length e1
      have hpl : (n.take (cpl n k)).length = cpl n k := by simp; omega
      simp only [List.length_drop, List.length_cons] at l1
      refine Sim.lift_bind (truncateFront_ok P (by simp only [List.length_cons]; omega)
        (by simp only [List.length_cons]; omega)) ?_
      simp only [List.drop_one, List.tail_cons, ofList_count]
      refine Sim.bind_ok (b := LNode.mkExt nr lc) (Q := Rep kec) ?_ ?_
      · cases nr with
        | nil => exact Sim.pure ⟨h, ho⟩
        | cons x y => exact sim_newExt rfl (by simp at l1 ⊢; omega) ⟨h, ho⟩
      · intro w1 t1 h1 hr1
        refine Sim.bind_ok (sim_placeBranch_both v hk (by omega) (by simp only [List.length_cons]; omega)
          (by rw [hpl]; exact e2) hr1) ?_
        intro w2 t2 h2 hr2
        exact Sim.pure ⟨_, rfl, hr2⟩
  | leaf n x =>
    intro t w k ht hb hk
    cases ht with
    | leaf a _ _ hn =>
    have hn' : n.length ≤ 127 := hb
    simp only [insertRec, LNode.insert]
    rw [beq_ofList hn (by omega)]
    by_cases hp : n = k
    · rw [if_pos hp, if_pos (decide_eq_true hp)]
      cases v with
      | val y => exact Sim.bind_ok (sim_newLeaf rfl hn) fun w' t hle hr =>
          Sim.pure ⟨_, rfl, hr⟩
      | hash y => rfl
    · rw [if_neg hp, if_neg (by simpa using hp)]
      have c1 := cpl_le_left n k
      have c2 := cpl_le_right n k
      have hpl : (n.take (cpl n k)).length = cpl n k := by simp; omega
      refine Sim.lift_bind (getPreAndPostfixes_ok hn' hk) ?_
      simp only [ofList_count, hpl]
      refine Sim.lift_bind (uadd_ok (by omega)) ?_
      refine Sim.lift_bind (truncateFront_ok P hn (by omega)) ?_
      refine Sim.bind_ok (sim_newLeaf rfl (by simp; omega)) ?_
      intro w1 t1 h1 hr1
      rw [← List.drop_drop] at hr1
      cases e1 : n.drop (cpl n k) with
      | nil =>
        cases e2 : k.drop (cpl n k) with
        | nil =>
          exfalso
          apply hp
          rw [← List.take_append_drop (cpl n k) n, e1, take_cpl, List.append_nil]
          conv_rhs => rw [← List.take_append_drop (cpl n k) k, e2, List.append_nil]
        | cons d kr =>
          obtain ⟨hr, ho⟩ := hr1
          cases hr
          refine Sim.bind_ok (sim_placeBranch_existing v hk (by omega)
            (by rw [hpl]; exact e2)) ?_
          intro w2 t2 h2 hr2
          exact Sim.pure ⟨_, rfl, hr2⟩
      | cons e nr =>
        rw [e1] at hr1
        have l1 := congrArg List.length e1
        simp only [List.length_drop, List.length_cons] at l1
        cases e2 : k.drop (cpl n k) with
        | nil =>
          have := sim_placeBranch_new (P := P) (k := k) (pre := n.take (cpl n k)) (er := nr)
            (e := e) v (by omega) (by simp; omega) hr1
          cases v with
          | val y =>
            refine Sim.bind_ok this ?_
            intro w2 t2 h2 hr2
            exact Sim.pure ⟨_, rfl, hr2⟩
          | hash y =>
            exact Sim.bind_err this
        | cons d kr =>
          refine Sim.bind_ok (sim_placeBranch_both v hk (by omega) (by simp; omega)
            (by rw [hpl]; exact e2) hr1) ?_
          intro w2 t2 h2 hr2
          exact Sim.pure ⟨_, rfl, hr2⟩

end
end EthTrie
