import Verif.Cost.Ops
import Verif.Cost.Model

/-!
# How many nodes a call makes
-/

namespace EthTrie

open Nibbles

variable {α β γ S : Type} {P : Profile} {kec : Bytes → H256}

/-- The program makes at most `n` nodes, whatever it reads, and its result satisfies `Q`. -/
def Allocs : Prog α β → Nat → (β → Prop) → Prop
  | .ret b, _, Q => Q b
  | .panic _, _, _ => True
  | .alloc k, n, Q => ∃ m, n = m + 1 ∧ ∀ a, Allocs (k a) m Q
  | .read _ k, n, Q => ∀ x, Allocs (k x) n Q
  | .write _ _ k, n, Q => Allocs k n Q

theorem Allocs.allocs [K : TrieKind α S] {p : Prog α β} {n : Nat} {Q : β → Prop} (h : Allocs p n Q) (s : S) :
    p.allocs s ≤ n := by
  induction p generalizing n s with
  | ret b => exact Nat.zero_le _
  | panic e => exact Nat.zero_le _
  | alloc k ih =>
    obtain ⟨m, rfl, h⟩ := h
    have := ih (K.alloc s).1 (h (K.alloc s).1) (K.alloc s).2
    simp only [Prog.allocs]
    omega
  | read a k ih => exact ih _ (h _) s
  | write a v k ih => exact ih h _

theorem Allocs.mono {p : Prog α β} {n m : Nat} {Q Q' : β → Prop} (h : Allocs p n Q) (hm : n ≤ m)
    (hq : ∀ b, Q b → Q' b) : Allocs p m Q' := by
  induction p generalizing n m with
  | ret b => exact hq b h
  | panic e => trivial
  | alloc k ih =>
    obtain ⟨l, rfl, h⟩ := h
    exact ⟨m - 1, by omega, fun a => ih a (h a) (by omega)⟩
  | read a k ih => exact fun x => ih x (h x) hm
  | write a v k ih => exact ih h hm

theorem Allocs.le {p : Prog α β} {n m : Nat} {Q : β → Prop} (hm : n ≤ m) (h : Allocs p n Q) :
    Allocs p m Q := h.mono hm fun _ h => h

theorem Allocs.bind {p : Prog α β} {f : β → Prog α γ} {n m : Nat} {Q : β → Prop} {Q' : γ → Prop}
    (h : Allocs p n Q) (hf : ∀ b, Q b → Allocs (f b) m Q') : Allocs (p >>= f) (n + m) Q' := by
  induction p generalizing n with
  | ret b => exact (hf b h).le (by omega)
  | panic e => trivial
  | alloc k ih =>
    obtain ⟨l, rfl, h⟩ := h
    exact ⟨l + m, by omega, fun a => ih a (h a)⟩
  | read a k ih => exact fun x => ih x (h x)
  | write a v k ih => exact ih h

theorem Allocs.lift {r : R β} {f : β → Prog α γ} {n : Nat} {Q : γ → Prop}
    (hf : ∀ b, r = .ok b → Allocs (f b) n Q) : Allocs (Prog.lift r >>= f) n Q := by
  cases r with
  | ok b => exact hf b rfl
  | error e => trivial

theorem made_one {f : α → β} {Q : β → Prop} (h : ∀ a, Q (f a)) : Allocs (.alloc fun a => .ret (f a)) 1 Q :=
  ⟨0, rfl, h⟩

/-! ## Insertion -/

theorem made_create (n : Nibbles) (v : ValOrHash) :
    Allocs (createNodeFromInsertVal n v : Prog α (Trie α)) 2 Trie.XOK := by
  cases v with
  | val v => exact Allocs.le (n := 1) (by omega) (made_one fun _ => trivial)
  | hash x =>
    unfold createNodeFromInsertVal
    simp only
    cases hn : n.isEmpty with
    | false =>
      refine Allocs.bind (n := 1) (m := 1) (Q := fun t => t.isBH ∧ t.XOK) (made_one fun _ => ⟨trivial, trivial⟩)
        fun c hc => made_one fun a => ⟨fun e => ?_, hc⟩
      simp [Nibbles.isEmpty, e] at hn
    | true => exact Allocs.le (n := 1) (by omega) (made_one fun _ => trivial)

theorem made_empties : ∀ n, Allocs (newEmpties n : Prog α (List (Trie α))) n fun ts => ∀ t ∈ ts, t.XOK
  | 0 => fun _ h => by cases h
  | n + 1 => by
    unfold newEmpties
    refine Allocs.le (n := 1 + (n + 0)) (by omega) ?_
    refine Allocs.bind (Q := Trie.XOK) (made_one fun _ => trivial) fun t ht => ?_
    refine (made_empties n).bind fun ts hts => ?_
    intro u hu
    rcases List.mem_cons.1 hu with rfl | hu
    · exact ht
    · exact hts u hu

theorem made_childArr : Allocs (newBranchChildArr : Prog α (Fin 16 → Trie α)) 16 fun cs => ∀ i, (cs i).XOK := by
  unfold newBranchChildArr
  refine Allocs.le (n := 1 + (15 + 0)) (by omega) ?_
  refine Allocs.bind (Q := Trie.XOK) (made_one fun _ => trivial) fun e he => ?_
  refine (made_empties 15).bind fun ts hts => ?_
  intro i
  have hm : (e :: ts).getD i.val e ∈ e :: ts := by
    rw [List.getD_eq_getElem?_getD]
    cases hx : (e :: ts)[i.val]? with
    | none => simp
    | some x => exact List.mem_of_getElem? hx
  show ((e :: ts).getD i.val e).XOK
  rcases List.mem_cons.1 hm with h | h
  · rw [h]; exact he
  · exact hts _ h

theorem made_insEntry (info : PrePost) (e : InsertEntry) :
    Allocs (insEntryIntoLeafAndNibble P info e : Prog α (Nibble × Trie α)) 2 fun r => r.2.XOK := by
  unfold insEntryIntoLeafAndNibble
  refine Allocs.lift fun _ _ => Allocs.lift fun _ _ => Allocs.lift fun _ _ => ?_
  exact (made_create _ _).bind (m := 0) fun _ h => h

/-- The nodes that are placed below a new branch. -/
def Placement.XOK : Placement α → Prop
  | .branchValue _ _ node => node.XOK
  | .bothChildren _ n1 _ n2 => n1.XOK ∧ n2.XOK

theorem made_placement (info : PrePost) {ex : Trie α} (hx : ex.XOK) (e : InsertEntry) :
    Allocs (checkPlacement P info ex e) 2 Placement.XOK := by
  unfold checkPlacement
  split
  · exact (made_insEntry _ _).bind (m := 0) fun _ h => h
  · exact Allocs.lift fun _ _ => Allocs.lift fun _ _ => hx
  · exact Allocs.lift fun _ _ => (made_insEntry _ _).bind (m := 0) fun _ h => ⟨hx, h⟩

theorem upd_XOK {cs : Fin 16 → Trie α} (h : ∀ i, (cs i).XOK) {u : Trie α} (hu : u.XOK) (i : Fin 16) :
    ∀ j, (upd cs i u j).XOK := by
  intro j
  unfold upd
  split
  · exact hu
  · exact h j

theorem made_placeBranch (info : PrePost) {ex : Trie α} (hx : ex.XOK) (e : InsertEntry) :
    Allocs (placeBranch P info ex e) 20 Trie.XOK := by
  unfold placeBranch
  refine made_childArr.bind (m := 4) fun cs hcs => ?_
  refine Allocs.bind (n := 2) (m := 2) (Q := fun r => ∀ i, (r.1 i).XOK) ?_ fun r hr => ?_
  · refine (made_placement _ hx _).bind (m := 0) fun r hr => ?_
    cases r with
    | branchValue v nib node => exact Allocs.lift fun i _ => upd_XOK hcs hr i
    | bothChildren nib1 n1 nib2 n2 =>
      exact Allocs.lift fun i _ => Allocs.lift fun j _ => upd_XOK (upd_XOK hcs hr.1 i) hr.2 j
  · obtain ⟨cs', v⟩ := r
    refine Allocs.bind (n := 1) (m := 1) (Q := fun t => t.isBH ∧ t.XOK) (made_one fun _ => ⟨trivial, hr⟩)
      fun b hb => ?_
    split
    · exact hb.2
    · exact made_one fun _ => ⟨‹_›, hb⟩

theorem made_insertRec : ∀ (t : Trie α) (e : InsertEntry), t.XOK → ∀ n, e.nibbles.count + 21 ≤ n ∨
    t.isBH ∧ e.nibbles.count = 0 ∧ 1 ≤ n →
    Allocs (insertRec P t e) n fun r => ∀ t', r = some t' → t'.XOK ∧ (t.isBH → t'.isBH) := by
  intro t
  induction t with
  | empty a =>
    intro e _ n hn
    have hn : 21 ≤ n := by
      rcases hn with h | h
      · omega
      · exact h.1.elim
    unfold insertRec
    refine Allocs.le (n := 2 + 0) (by omega) ((made_create _ _).bind fun t ht => ?_)
    intro t' h
    cases h
    exact ⟨ht, fun h => h.elim⟩
  | hash a x => intro e _ n _; trivial
  | leaf a nb v =>
    intro e _ n hn
    have hn : 21 ≤ n := by
      rcases hn with h | h
      · omega
      · exact h.1.elim
    unfold insertRec
    refine Allocs.le hn ?_
    split
    · refine Allocs.bind (n := 1) (m := 20) (Q := Trie.XOK) ?_ fun t ht => ?_
      · unfold leafFromInsertVal
        split
        · exact made_one fun _ => trivial
        · trivial
      · intro t' h
        cases h
        exact ⟨ht, fun h => h.elim⟩
    · refine Allocs.lift fun info _ => Allocs.lift fun amt _ => Allocs.lift fun rest _ => ?_
      refine Allocs.bind (n := 1) (m := 20) (Q := Trie.XOK) (made_one fun _ => trivial) fun ex hex => ?_
      refine (made_placeBranch _ hex _).bind (m := 0) fun t ht => ?_
      intro t' h
      cases h
      exact ⟨ht, fun h => h.elim⟩
  | ext a nb c ih =>
    intro e hx n hn
    replace hn : e.nibbles.count + 21 ≤ n := by
      rcases hn with h | h
      · exact h
      · exact h.1.elim
    obtain ⟨hnb, hbh, hcx⟩ := hx
    unfold insertRec
    refine Allocs.lift fun info _ => Allocs.lift fun same _ => ?_
    split
    · refine Allocs.lift fun rest hr => ?_
      have hrest := truncateFront_count hr
      have h1 := ih ⟨rest, e.v⟩ hcx (n - 1) (by
        by_cases h0 : rest.count = 0
        · exact .inr ⟨hbh, h0, by omega⟩
        · refine .inl ?_
          simp only
          omega)
      refine Allocs.le (n := n - 1 + 1) (by omega) (h1.bind fun r hr => ?_)
      cases r with
      | none => exact fun _ h => nomatch h
      | some u =>
        refine Allocs.bind (n := 1) (m := 0) (Q := Trie.XOK)
          (made_one fun _ => ⟨hnb, (hr u rfl).2 hbh, (hr u rfl).1⟩) fun t ht => ?_
        intro t' h
        cases h
        exact ⟨ht, fun h => h.elim⟩
    · refine Allocs.le (n := 21) (by omega) (Allocs.lift fun adj _ => ?_)
      refine Allocs.bind (n := 1) (m := 20) (Q := Trie.XOK) ?_ fun u hu => ?_
      · split
        · exact hcx
        · exact made_one fun _ => ⟨‹_›, hbh, hcx⟩
      · refine (made_placeBranch _ hu _).bind (m := 0) fun t ht => ?_
        intro t' h
        cases h
        exact ⟨ht, fun h => h.elim⟩
  | branch a cs v ih =>
    intro e hx n hn
    unfold insertRec
    by_cases h0 : e.nibbles.count = 0
    · rw [if_pos (by simpa using h0)]
      refine Allocs.le (n := 1 + 0) (by omega) ?_
      refine Allocs.bind (Q := fun t => t.isBH ∧ t.XOK) ?_ fun t ht => ?_
      · unfold branchFromInsertVal
        split
        · exact made_one fun _ => ⟨trivial, hx⟩
        · trivial
      · intro t' h
        cases h
        exact ⟨ht.2, fun _ => ht.1⟩
    · replace hn : e.nibbles.count + 21 ≤ n := by
        rcases hn with h | h
        · exact h
        · exact absurd h.2.1 h0
      rw [if_neg (by simpa using h0)]
      refine Allocs.lift fun r hr => ?_
      obtain ⟨nib, rest⟩ := r
      have hrest := popNextFront_count hr
      refine Allocs.lift fun i _ => ?_
      have h1 := ih i ⟨rest, e.v⟩ (hx i) (n - 1) (.inl (by simp only; omega))
      refine Allocs.le (n := n - 1 + 1) (by omega) (h1.bind fun r hr => ?_)
      cases r with
      | none => exact fun _ h => nomatch h
      | some u =>
        refine Allocs.bind (n := 1) (m := 0) (Q := fun t => t.isBH ∧ t.XOK)
          (made_one fun _ => ⟨trivial, upd_XOK hx (hr u rfl).1 i⟩) fun t ht => ?_
        intro t' h
        cases h
        exact ⟨ht.2, fun _ => ht.1⟩

theorem XOK_setAnn {t : Trie α} (h : t.XOK) (a : α) : (t.setAnn a).XOK := by
  cases t <;> exact h

theorem made_trieInsert {t : Trie α} (hx : t.XOK) (k : Nibbles) (v : ValOrHash) :
    Allocs (trieInsert P t k v) (k.count + 21) Trie.XOK := by
  unfold trieInsert
  refine (made_insertRec t ⟨k, v⟩ hx _ (.inl (Nat.le_refl _))).bind (m := 0) fun r hr => ?_
  cases r with
  | none => trivial
  | some u => exact XOK_setAnn (hr u rfl).1 _

theorem made_insert {t : Trie α} (hx : t.XOK) (k : Nibbles) (v : ValOrHash) :
    Allocs (t.insert P k v) (k.count + 21) Trie.XOK := by
  unfold Trie.insert
  exact (made_trieInsert hx k v).bind (m := 0) fun _ h => h

theorem made_trieExtend : ∀ (xs : List (Nibbles × ValOrHash)) {t : Trie α}, t.XOK →
    Allocs (trieExtend P t xs) (xs.map fun x => x.1.count + 21).sum Trie.XOK
  | [], t, hx => hx
  | (k, v) :: xs, t, hx => by
    unfold trieExtend
    simp only [List.map_cons, List.sum_cons]
    exact (made_trieInsert hx k v).bind fun u hu => made_trieExtend xs hu

theorem made_extend {t : Trie α} (hx : t.XOK) (xs : List (Nibbles × ValOrHash)) :
    Allocs (t.extend P xs) (xs.map fun x => x.1.count + 21).sum Trie.XOK := by
  unfold Trie.extend
  exact (made_trieExtend xs hx).bind (m := 0) fun _ h => h

theorem made_fromIter (xs : List (Nibbles × ValOrHash)) :
    Allocs (fromIter P xs : Prog α (Trie α)) (1 + (xs.map fun x => x.1.count + 21).sum) Trie.XOK := by
  unfold fromIter
  exact Allocs.bind (Q := Trie.XOK) (made_one fun _ => trivial) fun t ht => made_extend ht xs

/-! ## Deletion -/

theorem made_collapse (n : Nibbles) (c : Trie α) : Allocs (collapseExt P n c) 1 fun _ => True := by
  unfold collapseExt
  cases c with
  | branch a cs v => exact made_one fun _ => trivial
  | hash a x => exact made_one fun _ => trivial
  | empty a => trivial
  | leaf a m v => exact Allocs.lift fun _ _ => made_one fun _ => trivial
  | ext a m d => exact Allocs.lift fun _ _ => made_one fun _ => trivial

theorem made_tryCollapse (c : Trie α) : Allocs (tryCollapseIfExt P c) 1 fun _ => True := by
  cases c with
  | ext a m d => exact made_collapse m d
  | _ => trivial

theorem made_deleteIntern : ∀ (t : Trie α) (k : Nibbles), t.XOK → ∀ n, 2 * k.count + 2 ≤ n ∨
    t.isBH ∧ k.count = 0 ∧ 1 ≤ n → Allocs (deleteIntern P t k) n fun _ => True := by
  intro t
  induction t with
  | empty a => intro k _ n _; trivial
  | hash a x => intro k _ n _; trivial
  | leaf a nb v =>
    intro k _ n hn
    have hn : 2 ≤ n := by
      rcases hn with h | h
      · omega
      · exact h.1.elim
    unfold deleteIntern
    refine Allocs.le hn ?_
    split
    · exact Allocs.bind (n := 1) (m := 1) (Q := fun _ => True) (made_one fun _ => trivial) fun _ _ => trivial
    · trivial
  | ext a nb c ih =>
    intro k hx n hn
    replace hn : 2 * k.count + 2 ≤ n := by
      rcases hn with h | h
      · exact h
      · exact h.1.elim
    obtain ⟨hnb, hbh, hcx⟩ := hx
    unfold deleteIntern
    refine Allocs.lift fun same _ => ?_
    split
    · refine Allocs.lift fun rest hr => ?_
      have hrest := truncateFront_count hr
      have h1 := ih rest hcx (n - 1) (by
        by_cases h0 : rest.count = 0
        · exact .inr ⟨hbh, h0, by omega⟩
        · exact .inl (by omega))
      refine Allocs.le (n := n - 1 + 1) (by omega) (h1.bind fun r _ => ?_)
      cases r with
      | none => trivial
      | some u => exact (made_collapse _ _).bind (m := 0) fun _ _ => trivial
    · trivial
  | branch a cs v ih =>
    intro k hx n hn
    unfold deleteIntern
    by_cases h0 : k.count = 0
    · rw [if_pos (by simpa [Nibbles.isEmpty] using h0)]
      refine Allocs.le (n := 1 + 0) (by omega) ?_
      exact Allocs.bind (Q := fun _ => True) (made_one fun _ => trivial) fun _ _ => trivial
    · replace hn : 2 * k.count + 2 ≤ n := by
        rcases hn with h | h
        · exact h
        · exact absurd h.2.1 h0
      rw [if_neg (by simpa [Nibbles.isEmpty] using h0)]
      refine Allocs.lift fun r hr => ?_
      obtain ⟨nib, rest⟩ := r
      have hrest := popNextFront_count hr
      refine Allocs.lift fun i _ => ?_
      have h1 := ih i rest (hx i) (n - 2) (.inl (by omega))
      refine Allocs.le (n := n - 2 + 2) (by omega) (h1.bind fun r _ => ?_)
      cases r with
      | none => trivial
      | some u =>
        refine Allocs.bind (n := 2) (m := 0) (Q := fun _ => True) ?_ fun _ _ => trivial
        split
        · exact (made_tryCollapse _).bind (m := 1) fun _ _ => made_one fun _ => trivial
        · refine Allocs.lift fun _ _ => Allocs.lift fun _ _ => ?_
          exact Allocs.le (n := 1) (by omega) (made_one fun _ => trivial)

theorem made_delete {t : Trie α} (hx : t.XOK) (k : Nibbles) :
    Allocs (t.delete P k) (2 * k.count + 3) fun _ => True := by
  unfold Trie.delete trieDelete
  refine Allocs.bind (m := 0) (Q := fun _ => True) ?_ fun _ _ => trivial
  refine (made_deleteIntern t k hx _ (.inl (Nat.le_refl _))).bind (m := 1) fun r _ => ?_
  cases r with
  | none => trivial
  | some u => exact (made_tryCollapse _).bind (m := 0) fun _ _ => trivial

/-! ## Hashing -/

theorem made_seq : ∀ {ps : List (Prog α β)}, (∀ p ∈ ps, Allocs p 0 fun _ => True) →
    Allocs (Prog.seq ps) 0 fun _ => True
  | [], _ => trivial
  | p :: ps, h => by
    unfold Prog.seq
    exact (h p (by simp)).bind (m := 0) fun _ _ =>
      (made_seq fun q hq => h q (by simp [hq])).bind (m := 0) fun _ _ => trivial

theorem made_cached {a : α} {p : Prog α EncodedNode} (h : Allocs p 0 fun _ => True) :
    Allocs (cached a p) 0 fun _ => True := by
  intro x
  cases x with
  | some x => trivial
  | none =>
    refine h.bind (m := 0) fun e _ => ?_
    cases e <;> trivial

theorem made_encode : ∀ t : Trie α, Allocs (encodeNode P kec t) 0 fun _ => True := by
  intro t
  induction t with
  | empty a => trivial
  | hash a x => trivial
  | leaf a n v => exact Allocs.lift fun _ _ => trivial
  | ext a n c ih => exact Allocs.lift fun _ _ => (made_cached ih).bind (m := 0) fun _ _ => trivial
  | branch a cs v ih =>
    refine (made_seq fun p hp => ?_).bind (m := 0) fun _ _ => trivial
    obtain ⟨i, _, rfl⟩ := List.mem_map.1 hp
    exact made_cached (ih i)

theorem made_rootHash (t : Trie α) : Allocs (t.rootHash P kec) 0 fun _ => True := by
  intro x
  cases x with
  | some x => trivial
  | none => exact (made_encode t).bind (m := 0) fun _ _ => trivial

/-! ## Subsets -/

/-- The number of nodes of a tracked trie. -/
def Tracked.nodeCount : Tracked α → Nat
  | .branch _ _ cs => 1 + sum16 fun i => (cs i).nodeCount
  | .ext _ _ c => 1 + c.nodeCount
  | _ => 1

theorem nodeCount_new : ∀ t : Trie α, (Tracked.new t).nodeCount = t.nodeCount := by
  intro t
  induction t with
  | branch a cs v ih => simp only [Tracked.new, Tracked.nodeCount, Trie.nodeCount, ih]
  | ext a n c ih => simp only [Tracked.new, Tracked.nodeCount, Trie.nodeCount, ih]
  | _ => rfl

theorem nodeCount_setTouched (tr : Tracked α) (b : Bool) : (tr.setTouched b).nodeCount = tr.nodeCount := by
  cases tr <;> rfl

theorem nodeCount_reset (tr : Tracked α) : (resetTracked tr).nodeCount = tr.nodeCount := by
  have e : ∀ c : Tracked α, (c.setTouched false).nodeCount = c.nodeCount := fun c => nodeCount_setTouched c false
  cases tr with
  | branch u b cs => exact congrArg (fun f => 1 + sum16 f) (funext fun i => e (cs i))
  | ext u b c => exact congrArg (1 + ·) (e c)
  | _ => rfl

theorem nodeCount_mark : ∀ (tr : Tracked α) (k : Nibbles) {tr' : Tracked α},
    mark P tr k = .ok (.ok tr') → tr'.nodeCount = tr.nodeCount := by
  intro tr
  induction tr with
  | empty u b => intro k tr' h; cases h; rfl
  | leaf u b => intro k tr' h; cases h; rfl
  | hash u b =>
    intro k tr' h
    unfold mark at h
    split at h
    · cases h
    · cases h; rfl
  | branch u b cs ih =>
    intro k tr' h
    unfold mark at h
    split at h
    · cases h; rfl
    · obtain ⟨r, -, h⟩ := R_of_bind_ok h
      obtain ⟨nib, rest⟩ := r
      obtain ⟨i, -, h⟩ := R_of_bind_ok h
      obtain ⟨r, hr, h⟩ := R_of_bind_ok h
      cases r with
      | error e => cases h
      | ok c =>
        cases h
        have := ih i rest hr
        have e := sum16_upd Tracked.nodeCount cs i c
        simp only [Tracked.nodeCount]
        omega
  | ext u b c ih =>
    intro k tr' h
    unfold mark at h
    obtain ⟨n, -, h⟩ := R_of_bind_ok h
    obtain ⟨r, -, h⟩ := R_of_bind_ok h
    obtain ⟨r, rest⟩ := r
    obtain ⟨same, -, h⟩ := R_of_bind_ok h
    cases same with
    | false => cases h; rfl
    | true =>
      obtain ⟨r, hr, h⟩ := R_of_bind_ok h
      cases r with
      | error e => cases h
      | ok c' =>
        cases h
        simp only [Tracked.nodeCount, ih rest hr]

theorem nodeCount_markAll : ∀ (ks : List Nibbles) {tr tr' : Tracked α},
    markAll P tr ks = .ok (.ok tr') → tr'.nodeCount = tr.nodeCount
  | [], tr, tr', h => by cases h; rfl
  | k :: ks, tr, tr', h => by
    unfold markAll at h
    obtain ⟨r, hr, h⟩ := R_of_bind_ok h
    cases r with
    | error e => cases h
    | ok t1 => rw [nodeCount_markAll ks h, nodeCount_mark tr k hr]

theorem made_hashAway (tr : Tracked α) : Allocs (hashAway P kec tr) 0 fun _ => True := by
  unfold hashAway
  split
  · refine (made_cached (made_encode _)).bind (m := 0) fun e _ => ?_
    cases e <;> trivial
  · trivial

theorem made_seqSum : ∀ {ι : Type} (l : List ι) (f : ι → Prog α β) (g : ι → Nat),
    (∀ i ∈ l, Allocs (f i) (g i) fun _ => True) →
    Allocs (Prog.seq (l.map f)) (l.map g).sum fun _ => True
  | _, [], _, _, _ => trivial
  | _, i :: l, f, g, h => by
    simp only [List.map_cons, List.sum_cons]
    unfold Prog.seq
    exact (h i (by simp)).bind fun _ _ =>
      (made_seqSum l f g fun j hj => h j (by simp [hj])).bind (m := 0) fun _ _ => trivial

theorem made_createSubset : ∀ tr : Tracked α, Allocs (createSubset P kec tr) tr.nodeCount fun _ => True := by
  have one : ∀ {f : α → Trie α} {n : Nat}, 1 ≤ n →
      Allocs (.alloc fun a => .ret (f a)) n fun _ => True :=
    fun h => Allocs.le h (made_one fun _ => trivial)
  intro tr
  induction tr with
  | empty u b =>
    unfold createSubset
    refine Allocs.le (n := 0 + 1) (by simp [Tracked.nodeCount]) ((made_hashAway _).bind fun x _ => ?_)
    cases x <;> exact one (Nat.le_refl _)
  | hash u b =>
    unfold createSubset
    refine Allocs.le (n := 0 + 1) (by simp [Tracked.nodeCount]) ((made_hashAway _).bind fun x _ => ?_)
    cases x with
    | some x => exact one (Nat.le_refl _)
    | none => exact Allocs.lift fun _ _ => one (Nat.le_refl _)
  | leaf u b =>
    unfold createSubset
    refine Allocs.le (n := 0 + 1) (by simp [Tracked.nodeCount]) ((made_hashAway _).bind fun x _ => ?_)
    cases x with
    | some x => exact one (Nat.le_refl _)
    | none => exact Allocs.lift fun _ _ => one (Nat.le_refl _)
  | ext u b c ih =>
    unfold createSubset
    refine Allocs.le (n := 0 + (1 + c.nodeCount)) (by simp [Tracked.nodeCount]) ((made_hashAway _).bind fun x _ => ?_)
    cases x with
    | some x => exact one (by omega)
    | none =>
      refine Allocs.lift fun _ _ => Allocs.le (n := c.nodeCount + 1) (by omega) (ih.bind fun _ _ => ?_)
      exact one (Nat.le_refl _)
  | branch u b cs ih =>
    unfold createSubset
    refine Allocs.le (n := 0 + (1 + sum16 fun i => (cs i).nodeCount)) (by simp [Tracked.nodeCount])
      ((made_hashAway _).bind fun x _ => ?_)
    cases x with
    | some x => exact one (by omega)
    | none =>
      refine Allocs.lift fun _ _ => Allocs.le (n := (sum16 fun i => (cs i).nodeCount) + 1) (by omega) ?_
      refine (made_seqSum _ _ _ fun i _ => ih i).bind fun _ _ => Allocs.lift fun _ _ => ?_
      exact one (Nat.le_refl _)

theorem made_subset (t : Trie α) (ks : List Nibbles) :
    Allocs (createTrieSubset P kec t ks) t.nodeCount fun _ => True := by
  unfold createTrieSubset
  refine Allocs.lift fun r hr => ?_
  cases r with
  | error e => trivial
  | ok tr =>
    have := nodeCount_markAll ks hr
    rw [nodeCount_new] at this
    rw [← this]
    exact (made_createSubset tr).bind (m := 0) fun _ _ => trivial

theorem made_subsetsFrom : ∀ (kss : List (List Nibbles)) (tr : Tracked α),
    Allocs (createTrieSubsetsFrom P kec tr kss) (kss.length * tr.nodeCount) fun _ => True
  | [], tr => trivial
  | ks :: kss, tr => by
    unfold createTrieSubsetsFrom
    refine Allocs.lift fun r hr => ?_
    cases r with
    | error e => trivial
    | ok tr' =>
      have e := nodeCount_markAll ks hr
      rw [List.length_cons, Nat.succ_mul, ← e, Nat.add_comm]
      refine (made_createSubset tr').bind fun _ _ => ?_
      have := made_subsetsFrom kss (resetTracked tr')
      rw [nodeCount_reset] at this
      refine this.bind (m := 0) fun r _ => ?_
      cases r <;> trivial

end EthTrie
