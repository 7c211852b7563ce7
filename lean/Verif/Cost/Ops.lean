import Verif.Cost.Hash

/-!
# Changes make few nodes cold
-/

namespace EthTrie

open Nibbles

variable {P : Profile} {kec : Bytes → H256} {s s' : Heap} {o o' : Owner} {t : Trie CellId}

/-! ## Keys -/

theorem R_of_bind_ok {A B : Type} {x : R A} {f : A → R B} {b : B} (h : (x >>= f) = .ok b) :
    ∃ a, x = .ok a ∧ f a = .ok b := by
  cases x with
  | error e => cases h
  | ok a => exact ⟨a, rfl, h⟩

theorem truncateFront_count {x y : Nibbles} {n : Nat} (h : x.truncateFront P n = .ok y) :
    y.count = x.count - n := by
  unfold truncateFront at h
  have hm : x.minTruncate n ≤ x.count := by
    unfold minTruncate
    split
    · exact Nat.le_refl _
    · rename_i e; simpa using e
  have hu : usub P x.count (x.minTruncate n) = .ok (x.count - x.minTruncate n) := by
    unfold usub; rw [if_pos hm]
  have hc : x.count - x.minTruncate n = x.count - n := by
    unfold minTruncate
    split
    · rename_i e
      simp only [ge_iff_le, decide_eq_false_iff_not, not_le] at e
      omega
    · rfl
  rw [← hc]
  obtain ⟨a, -, h⟩ := R_of_bind_ok h
  obtain ⟨a, -, h⟩ := R_of_bind_ok h
  obtain ⟨b, -, h⟩ := R_of_bind_ok h
  obtain ⟨c, -, h⟩ := R_of_bind_ok h
  obtain ⟨d, hd, h⟩ := R_of_bind_ok h
  rw [← congrArg Nibbles.count (Except.ok.inj h)]
  rw [hu] at hd
  exact (Except.ok.inj hd).symm

theorem popNextFront_count {x y : Nibbles} {d : Nibble} (h : x.popNextFront P = .ok (d, y)) :
    y.count = x.count - 1 := by
  unfold popNextFront at h
  revert h
  show ((x.getNibble P 0).bind fun a => _) = _ → _
  cases x.getNibble P 0 with
  | error e => intro h; cases h
  | ok a =>
    show ((x.truncateFront P 1).bind fun a => _) = _ → _
    cases hy : x.truncateFront P 1 with
    | error e => intro h; cases h
    | ok b => intro h; cases h; exact truncateFront_count hy

/-! ## New nodes -/

theorem tri_newEmpty (root : Bool) (ho : OwnOK s o) :
    Tri (newEmpty : Prog CellId (Trie CellId)) s o fun s' o' t => MadeOK root s' o' t ∧
      t.nodeCount = 1 ∧ t.kids = [] :=
  Tri.made root ho (fun _ => rfl) (fun _ _ h => by cases h) fun _ _ _ _ _ h => ⟨h, rfl, rfl⟩

theorem tri_newHash (root : Bool) (ho : OwnOK s o) (x : H256) :
    Tri (newHash x : Prog CellId (Trie CellId)) s o fun s' o' t => MadeOK root s' o' t ∧
      t.nodeCount = 1 ∧ ∃ a, t = .hash a x :=
  Tri.made root ho (fun _ => rfl) (fun _ _ h => by cases h) fun _ _ _ _ _ h => ⟨h, rfl, _, rfl⟩

theorem tri_newLeaf (root : Bool) (ho : OwnOK s o) (n : Nibbles) (v : Bytes) :
    Tri (newLeaf n v : Prog CellId (Trie CellId)) s o fun s' o' t => MadeOK root s' o' t ∧
      ∃ a, t = .leaf a n v :=
  Tri.made root ho (fun _ => rfl) (fun _ _ h => by cases h) fun _ _ _ _ _ h => ⟨h, _, rfl⟩

theorem tri_newExt (root : Bool) (ho : OwnOK s o) (n : Nibbles) {c : Trie CellId} (hc : Owned o c) :
    Tri (newExt n c : Prog CellId (Trie CellId)) s o fun s' o' t => MadeOK root s' o' t ∧
      OwnLe s o s' o' ∧ ∃ a, t = .ext a n c :=
  Tri.made root ho (fun _ => rfl) (fun _ v h => by
    cases List.mem_singleton.1 h; exact hc) fun _ _ _ hl _ h => ⟨h, hl, _, rfl⟩

theorem tri_newBranch (root : Bool) (ho : OwnOK s o) {cs : Fin 16 → Trie CellId} (v : Bytes)
    (hc : ∀ i, Owned o (cs i)) :
    Tri (newBranch cs v : Prog CellId (Trie CellId)) s o fun s' o' t => MadeOK root s' o' t ∧
      OwnLe s o s' o' ∧ ∃ a, t = .branch a cs v :=
  Tri.made root ho (fun _ => rfl) (fun _ u h => by
    obtain ⟨i, _, rfl⟩ := List.mem_map.1 h; exact hc i) fun _ _ _ hl _ h => ⟨h, hl, _, rfl⟩

theorem Trie.cold_ext_le (s : Heap) (a : CellId) (n : Nibbles) (c : Trie CellId) :
    (Trie.ext a n c).cold s ≤ 1 + c.cold s := by
  have := Trie.cold_le s (.ext a n c)
  simpa [coldN, kids] using this

theorem Trie.coldN_branch (s : Heap) (a : CellId) (cs : Fin 16 → Trie CellId) (v : Bytes) :
    (Trie.branch a cs v).coldN s = sum16 fun i => (cs i).cold s := by
  simp [coldN, kids, sum16, List.map_map, Function.comp_def]

theorem Trie.cold_branch_le (s : Heap) (a : CellId) (cs : Fin 16 → Trie CellId) (v : Bytes) :
    (Trie.branch a cs v).cold s ≤ 1 + sum16 fun i => (cs i).cold s := by
  rw [← coldN_branch s a cs v]
  exact Trie.cold_le s _

/-! ## Extensions -/

/-- The node is a branch or a hash node. -/
def Trie.isBH {α : Type} : Trie α → Prop
  | .branch _ _ _ => True
  | .hash _ _ => True
  | _ => False

/-- Extensions have a non-empty key and lead to a branch or a hash node. -/
def Trie.XOK {α : Type} : Trie α → Prop
  | .branch _ cs _ => ∀ i, (cs i).XOK
  | .ext _ n c => n.count ≠ 0 ∧ c.isBH ∧ c.XOK
  | _ => True

/-- The node is a branch. -/
def Trie.isBranch {α : Type} : Trie α → Bool
  | .branch _ _ _ => true
  | _ => false

/-! ## Insertion -/

theorem tri_createNode (root : Bool) (ho : OwnOK s o) (n : Nibbles) (v : ValOrHash) :
    Tri (createNodeFromInsertVal n v : Prog CellId (Trie CellId)) s o fun s' o' t =>
      MadeOK root s' o' t ∧ t.nodeCount ≤ 31 ∧ t.XOK := by
  cases v with
  | val v =>
    refine (tri_newLeaf root ho n v).mono ho fun s' o' t _ _ h => ?_
    obtain ⟨h, a, rfl⟩ := h
    exact ⟨h, by simp [Trie.nodeCount], trivial⟩
  | hash x =>
    unfold createNodeFromInsertVal
    simp only
    cases hn : n.isEmpty with
    | true =>
      refine (tri_newHash root ho x).mono ho fun s' o' t _ _ h => ?_
      obtain ⟨h, e, a, rfl⟩ := h
      exact ⟨h, by rw [e]; omega, trivial⟩
    | false =>
      refine (tri_newHash false ho x).bind ho fun s1 o1 c hl ho1 h => ?_
      obtain ⟨h, e, a, rfl⟩ := h
      refine (tri_newExt root ho1 n h).mono ho1 fun s' o' t _ _ h => ?_
      obtain ⟨h, _, a', rfl⟩ := h
      refine ⟨h, by simp [Trie.nodeCount], ?_, trivial, trivial⟩
      intro e
      simp [Nibbles.isEmpty, e] at hn

theorem tri_newEmpties : ∀ (n : Nat) {s : Heap} {o : Owner}, OwnOK s o →
    Tri (newEmpties n : Prog CellId (List (Trie CellId))) s o fun _ o' ts =>
      ∀ t ∈ ts, Owned o' t ∧ t.nodeCount = 1 ∧ t.kids = []
  | 0, s, o, _ => fun _ h => by cases h
  | n + 1, s, o, ho => by
    unfold newEmpties
    refine (tri_newEmpty false ho).bind ho fun s1 o1 e hl ho1 h1 => ?_
    refine (tri_newEmpties n ho1).bind ho1 fun s2 o2 ts hl2 ho2 h2 => ?_
    intro t ht
    rcases List.mem_cons.1 ht with rfl | ht
    · exact ⟨Owned.le h1.1 hl2, h1.2⟩
    · exact h2 t ht

theorem isEmpty_of_kids {t : Trie CellId} (h : t.kids = []) : t.XOK := by
  cases t with
  | branch a cs v => exact absurd h (by simp [Trie.kids])
  | ext a n c => exact absurd h (by simp [Trie.kids])
  | _ => trivial

theorem tri_childArr (ho : OwnOK s o) :
    Tri (newBranchChildArr : Prog CellId (Fin 16 → Trie CellId)) s o fun _ o' cs =>
      ∀ i, Owned o' (cs i) ∧ (cs i).nodeCount ≤ 31 ∧ (cs i).XOK := by
  unfold newBranchChildArr
  refine (tri_newEmpty false ho).bind ho fun s1 o1 e hl ho1 h1 => ?_
  refine (tri_newEmpties 15 ho1).bind ho1 fun s2 o2 ts hl2 ho2 h2 => ?_
  intro i
  have hm : (e :: ts).getD i.val e ∈ e :: ts := by
    rw [List.getD_eq_getElem?_getD]
    cases hx : (e :: ts)[i.val]? with
    | none => simp
    | some x => exact List.mem_of_getElem? hx
  rcases List.mem_cons.1 hm with h | h
  · show Owned o2 ((e :: ts).getD i.val e) ∧ ((e :: ts).getD i.val e).nodeCount ≤ 31 ∧
      ((e :: ts).getD i.val e).XOK
    rw [h]
    exact ⟨Owned.le h1.1 hl2, by rw [h1.2.1]; omega, isEmpty_of_kids h1.2.2⟩
  · obtain ⟨g1, g2, g3⟩ := h2 _ h
    exact ⟨g1, by rw [g2]; omega, isEmpty_of_kids g3⟩

theorem tri_insEntry (ho : OwnOK s o) (info : PrePost) (e : InsertEntry) :
    Tri (insEntryIntoLeafAndNibble P info e : Prog CellId (Nibble × Trie CellId)) s o fun _ o' r =>
      Owned o' r.2 ∧ r.2.nodeCount ≤ 31 ∧ r.2.XOK := by
  unfold insEntryIntoLeafAndNibble
  refine Tri.lift fun d _ => Tri.lift fun amt _ => Tri.lift fun nib _ => ?_
  exact (tri_createNode false ho nib e.v).bind ho fun s1 o1 c _ _ h => h

/-- What is placed below a new branch. -/
def PlaceOK (s : Heap) (o : Owner) (ex : Trie CellId) : Placement CellId → Prop
  | .branchValue _ _ node => Owned o node ∧ node.cold s ≤ ex.cold s ∧ (node.XOK)
  | .bothChildren _ n1 _ n2 => n1 = ex ∧ Owned o ex ∧ Owned o n2 ∧ n2.nodeCount ≤ 31 ∧ n2.XOK

theorem tri_place (ho : OwnOK s o) (info : PrePost) {ex : Trie CellId} (hex : Owned o ex)
    (hx : ex.XOK) (e : InsertEntry) :
    Tri (checkPlacement P info ex e) s o fun s' o' r => PlaceOK s' o' ex r := by
  unfold checkPlacement
  split
  · refine (tri_insEntry ho info e).bind ho fun s1 o1 r hl _ h => ?_
    exact ⟨h.1, by rw [Trie.cold_small h.2.1]; omega, h.2.2⟩
  · refine Tri.lift fun v _ => Tri.lift fun nib _ => ⟨hex, Nat.le_refl _, hx⟩
  · refine Tri.lift fun nib _ => ?_
    refine (tri_insEntry ho info e).bind ho fun s1 o1 r hl _ h => ?_
    exact ⟨rfl, hex.le hl, h⟩

theorem tri_placeBranch (ho : OwnOK s o) (info : PrePost) {ex : Trie CellId} (hex : Owned o ex)
    (hx : ex.XOK) (e : InsertEntry) :
    Tri (placeBranch P info ex e) s o fun s' o' t => Owned o' t ∧ t.cold s' ≤ ex.cold s + 2 ∧ t.XOK := by
  unfold placeBranch
  refine (tri_childArr ho).bind ho fun s1 o1 cs hl1 ho1 h1 => ?_
  have hex1 := hex.le hl1
  have hc1 : ex.cold s1 ≤ ex.cold s := Trie.cold_mono hl1 ho ex hex
  refine Tri.bind (Q := fun s' o' r => (∀ i, Owned o' (r.1 i) ∧ (r.1 i).XOK) ∧
        (sum16 fun i => (r.1 i).cold s') ≤ ex.cold s) ?_ ho1 ?_
  · refine (tri_place (P := P) ho1 info hex1 hx e).bind ho1 fun s2 o2 r hl2 ho2 h2 => ?_
    have hcs : ∀ i, Owned o2 (cs i) ∧ (cs i).XOK := fun i => ⟨(h1 i).1.le hl2, (h1 i).2.2⟩
    have hz : (sum16 fun i => (cs i).cold s2) = 0 := sum16_zero fun i => Trie.cold_small (h1 i).2.1
    have hc2 : ex.cold s2 ≤ ex.cold s1 := Trie.cold_mono hl2 ho1 ex hex1
    cases r with
    | branchValue v nib node =>
      refine Tri.lift fun i _ => ?_
      obtain ⟨g1, g2, g3⟩ := h2
      refine ⟨fun j => ?_, ?_⟩
      · show Owned o2 (upd cs i node j) ∧ (upd cs i node j).XOK
        unfold upd
        split
        · exact ⟨g1, g3⟩
        · exact hcs j
      · have := sum16_upd (Trie.cold s2) cs i node
        show (sum16 fun j => (upd cs i node j).cold s2) ≤ _
        omega
    | bothChildren nib1 n1 nib2 n2 =>
      refine Tri.lift fun i _ => Tri.lift fun j _ => ?_
      obtain ⟨rfl, g1, g2, g3, g4⟩ := h2
      refine ⟨fun k => ?_, ?_⟩
      · show Owned o2 (upd (upd cs i n1) j n2 k) ∧ (upd (upd cs i n1) j n2 k).XOK
        unfold upd
        split
        · exact ⟨g2, g4⟩
        · split
          · exact ⟨g1, hx⟩
          · exact hcs k
      · have e1 := sum16_upd (Trie.cold s2) cs i n1
        have e2 := sum16_upd (Trie.cold s2) (upd cs i n1) j n2
        have e3 : n2.cold s2 = 0 := Trie.cold_small g3
        show (sum16 fun k => (upd (upd cs i n1) j n2 k).cold s2) ≤ _
        omega
  intro s2 o2 r hl2 ho2 h2
  obtain ⟨cs', v⟩ := r
  simp only at h2 ⊢
  refine (tri_newBranch false ho2 v fun i => (h2.1 i).1).bind ho2 fun s3 o3 b hl3 ho3 h3 => ?_
  obtain ⟨h3, hl3, a, rfl⟩ := h3
  have hb : (Trie.branch a cs' v).cold s3 ≤ ex.cold s + 1 := by
    refine Nat.le_trans (Trie.cold_branch_le _ _ _ _) ?_
    have : (sum16 fun i => (cs' i).cold s3) ≤ sum16 fun i => (cs' i).cold s2 :=
      sum16_le fun i => Trie.cold_mono hl3 ho2 _ (h2.1 i).1
    have := h2.2
    omega
  have hbx : (Trie.branch a cs' v).XOK := fun i => (h2.1 i).2
  split
  · exact ⟨h3, by omega, hbx⟩
  · rename_i hn
    refine (tri_newExt false ho3 info.commonPrefix h3).mono ho3 fun s4 o4 t hl4 ho4 h4 => ?_
    obtain ⟨h4, _, a', rfl⟩ := h4
    refine ⟨h4, ?_, hn, trivial, hbx⟩
    have h5 : (Trie.branch a cs' v).cold s4 ≤ _ := Trie.cold_mono hl4 ho3 _ h3
    have := Trie.cold_ext_le s4 a' info.commonPrefix (.branch a cs' v)
    omega

theorem tri_insertRec : ∀ (t : Trie CellId) {s : Heap} {o : Owner} (e : InsertEntry), OwnOK s o →
    KidsOwned o t → t.XOK →
    Tri (insertRec P t e) s o fun s' o' r => ∀ t', r = some t' → Owned o' t' ∧
      t'.cold s' ≤ t.coldN s + e.nibbles.count + 3 ∧ t'.XOK ∧
      (t.isBH → t'.isBH ∧ (e.nibbles.count = 0 → t'.cold s' ≤ t.coldN s + 1)) := by
  intro t
  induction t with
  | empty a =>
    intro s o e ho hk hx
    unfold insertRec
    refine (tri_createNode false ho e.nibbles e.v).bind ho fun s1 o1 t' _ _ h => ?_
    intro t'' ht
    cases ht
    exact ⟨h.1, by rw [Trie.cold_small h.2.1]; omega, h.2.2, fun h => h.elim⟩
  | hash a x => intro s o e ho hk hx; exact trivial
  | leaf a n v =>
    intro s o e ho hk hx
    unfold insertRec
    split
    · cases hv : e.v with
      | hash x => exact trivial
      | val v' =>
        refine (tri_newLeaf false ho n v').bind ho fun s1 o1 t' _ _ h => ?_
        intro t'' ht
        cases ht
        obtain ⟨h, b, rfl⟩ := h
        exact ⟨h, by simp [Trie.cold], trivial, fun h => h.elim⟩
    · refine Tri.lift fun info _ => Tri.lift fun amt _ => Tri.lift fun rest _ => ?_
      refine (tri_newLeaf false ho rest v).bind ho fun s1 o1 ex hl ho1 h => ?_
      obtain ⟨h, b, rfl⟩ := h
      refine (tri_placeBranch ho1 info h trivial e).bind ho1 fun s2 o2 t' _ _ h2 => ?_
      intro t'' ht
      cases ht
      refine ⟨h2.1, ?_, h2.2.2, fun h => h.elim⟩
      have := h2.2.1
      have k : (Trie.leaf b rest v).cold s1 = 0 := Trie.cold_small (by simp [Trie.nodeCount])
      omega
  | ext a n c ih =>
    intro s o e ho hk hx
    obtain ⟨hn, hbh, hcx⟩ := hx
    have hc : Owned o c := hk c (by simp [Trie.kids])
    have hcold : (Trie.ext a n c).coldN s = c.cold s := by simp [Trie.coldN, Trie.kids]
    unfold insertRec
    refine Tri.lift fun info _ => Tri.lift fun same _ => ?_
    split
    · refine Tri.lift fun rest hr => ?_
      have hrest := truncateFront_count hr
      refine (ih ⟨rest, e.v⟩ ho (hc.kids ho) hcx).bind ho fun s1 o1 r hl ho1 h => ?_
      cases r with
      | none => exact fun _ h => nomatch h
      | some u =>
        obtain ⟨g1, g2, g3, g4⟩ := h u rfl
        refine (tri_newExt false ho1 n g1).bind ho1 fun s2 o2 t' hl2 ho2 h2 => ?_
        intro t'' ht
        cases ht
        obtain ⟨h2, _, b, rfl⟩ := h2
        refine ⟨h2, ?_, ⟨hn, (g4 hbh).1, g3⟩, fun h => h.elim⟩
        have k1 : u.cold s2 ≤ u.cold s1 := Trie.cold_mono hl2 ho1 u g1
        have k2 := Trie.cold_ext_le s2 b n u
        have k3 := c.coldN_le s
        rw [hcold]
        have k4 : rest.count + 1 ≤ e.nibbles.count ∨ rest.count = 0 := by omega
        have k5 := (g4 hbh).2
        simp only at g2 k5
        rcases k4 with k4 | k4
        · omega
        · have := k5 k4
          omega
    · refine Tri.lift fun adj _ => ?_
      have step : Tri (match adj.count with
          | 0 => pure c
          | _ => newExt adj c : Prog CellId (Trie CellId)) s o fun s' o' u => Owned o' u ∧
            u.cold s' ≤ 1 + c.cold s ∧ u.XOK := by
        split
        · exact ⟨hc, by omega, hcx⟩
        · rename_i hadj
          refine (tri_newExt false ho adj hc).mono ho fun s1 o1 u hl _ h => ?_
          obtain ⟨h, _, b, rfl⟩ := h
          refine ⟨h, ?_, hadj, hbh, hcx⟩
          have := Trie.cold_ext_le s1 b adj c
          have k1 : c.cold s1 ≤ c.cold s := Trie.cold_mono hl ho c hc
          omega
      refine step.bind ho fun s1 o1 u hl ho1 h => ?_
      refine (tri_placeBranch ho1 info h.1 h.2.2 e).bind ho1 fun s2 o2 t' _ _ h2 => ?_
      intro t'' ht
      cases ht
      refine ⟨h2.1, ?_, h2.2.2, fun h => h.elim⟩
      have := h2.2.1
      have := h.2.1
      rw [hcold]
      omega
  | branch a cs v ih =>
    intro s o e ho hk hx
    have hw : ∀ i, Owned o (cs i) := fun i => hk _ (by simp [Trie.kids])
    unfold insertRec
    split
    · cases hv : e.v with
      | hash x => exact trivial
      | val v' =>
        refine (tri_newBranch false ho v' hw).bind ho fun s1 o1 t' _ _ h => ?_
        intro t'' ht
        cases ht
        obtain ⟨h, hl, b, rfl⟩ := h
        rw [Trie.coldN_branch]
        suffices hs : (Trie.branch b cs v').cold s1 ≤ (sum16 fun i => (cs i).cold s) + 1 from
          ⟨h, by omega, hx, fun _ => ⟨trivial, fun _ => hs⟩⟩
        have k1 := Trie.cold_branch_le s1 b cs v'
        have k2 : (sum16 fun i => (cs i).cold s1) ≤ sum16 fun i => (cs i).cold s :=
          sum16_le fun i => Trie.cold_mono hl ho _ (hw i)
        omega
    · rename_i hne
      refine Tri.lift fun r hr => ?_
      obtain ⟨nib, rest⟩ := r
      have hrest := popNextFront_count hr
      refine Tri.lift fun i _ => ?_
      refine (ih i ⟨rest, e.v⟩ ho ((hw i).kids ho) (hx i)).bind ho fun s1 o1 r hl ho1 h => ?_
      cases r with
      | none => exact fun _ h => nomatch h
      | some u =>
        obtain ⟨g1, g2, g3, -⟩ := h u rfl
        have hw1 : ∀ j, Owned o1 (upd cs i u j) := by
          intro j
          unfold upd
          split
          · exact g1
          · exact (hw j).le hl
        refine (tri_newBranch false ho1 v hw1).bind ho1 fun s2 o2 t' _ _ h2 => ?_
        intro t'' ht
        cases ht
        obtain ⟨h2, hl2, b, rfl⟩ := h2
        have hpos : e.nibbles.count ≠ 0 := by simpa using hne
        refine ⟨h2, ?_, ?_, fun _ => ⟨trivial, fun h => absurd h hpos⟩⟩
        · have k1 := Trie.cold_branch_le s2 b (upd cs i u) v
          have k2 : (sum16 fun j => (upd cs i u j).cold s2) ≤
              sum16 fun j => upd (fun j => (cs j).cold s) i (u.cold s1) j := by
            refine sum16_le fun j => ?_
            have := Trie.cold_mono hl2 ho1 _ (hw1 j)
            refine Nat.le_trans this ?_
            unfold upd
            split
            · exact Nat.le_refl _
            · exact Trie.cold_mono hl ho _ (hw j)
          have k4 := sum16_upd (fun n : Nat => n) (fun j => (cs j).cold s) i (u.cold s1)
          rw [Trie.coldN_branch]
          have k5 := (cs i).coldN_le s
          simp only at k4 g2
          omega
        · intro j
          unfold upd
          split
          · exact g3
          · exact hx j

/-! ## Deletion -/

theorem tri_collapse (ho : OwnOK s o) (n : Nibbles) {c : Trie CellId} (hc : Owned o c) :
    Tri (collapseExt P n c) s o fun s' o' t => Owned o' t ∧ t.cold s' ≤ 1 + c.cold s := by
  have key : ∀ (m : Nibbles) (d : Trie CellId), Owned o d → d.cold s ≤ c.cold s →
      Tri (newExt m d) s o fun s' o' t => Owned o' t ∧ t.cold s' ≤ 1 + c.cold s := by
    intro m d hd hle
    refine (tri_newExt false ho m hd).mono ho fun s1 o1 t hl _ h => ?_
    obtain ⟨h, _, a, rfl⟩ := h
    have k1 := Trie.cold_ext_le s1 a m d
    have k2 : d.cold s1 ≤ d.cold s := Trie.cold_mono hl ho d hd
    exact ⟨h, by omega⟩
  unfold collapseExt
  cases c with
  | branch a cs v => exact key n _ hc (Nat.le_refl _)
  | hash a x => exact key n _ hc (Nat.le_refl _)
  | empty a => trivial
  | leaf a m v =>
    refine Tri.lift fun m' _ => ?_
    refine (tri_newLeaf false ho m' v).mono ho fun s1 o1 t _ _ h => ?_
    obtain ⟨h, b, rfl⟩ := h
    exact ⟨h, by rw [Trie.cold_small (by simp [Trie.nodeCount])]; omega⟩
  | ext a m d =>
    refine Tri.lift fun m' _ => ?_
    refine key m' d (hc.kids ho d (by simp [Trie.kids])) ?_
    have k1 := (Trie.ext a m d).coldN_le s
    have k2 : d.cold s ≤ (Trie.ext a m d).coldN s := Trie.cold_kid (by simp [Trie.kids])
    omega

theorem tri_tryCollapse (ho : OwnOK s o) {c : Trie CellId} (hc : Owned o c) :
    Tri (tryCollapseIfExt P c) s o fun s' o' t => Owned o' t ∧ t.cold s' ≤ 1 + c.cold s := by
  cases c with
  | ext a m d =>
    refine (tri_collapse ho m (hc.kids ho d (by simp [Trie.kids]))).mono ho fun s1 o1 t _ _ h => ?_
    refine ⟨h.1, ?_⟩
    have k1 := (Trie.ext a m d).coldN_le s
    have k2 : d.cold s ≤ (Trie.ext a m d).coldN s := Trie.cold_kid (by simp [Trie.kids])
    have := h.2
    omega
  | _ => exact ⟨hc, Nat.le_add_left _ _⟩

theorem tri_deleteIntern : ∀ (t : Trie CellId) {s : Heap} {o : Owner} (k : Nibbles), OwnOK s o →
    KidsOwned o t → t.XOK →
    Tri (deleteIntern P t k) s o fun s' o' r => ∀ t' v, r = some (t', v) → Owned o' t' ∧
      t'.cold s' ≤ t.coldN s + 2 * k.count + 2 ∧
      (t.isBH → k.count = 0 → t'.cold s' ≤ t.coldN s + 1) := by
  intro t
  induction t with
  | empty a => intro s o k ho hk hx; exact fun _ _ h => nomatch h
  | hash a x => intro s o k ho hk hx; exact trivial
  | leaf a n v =>
    intro s o k ho hk hx
    unfold deleteIntern
    split
    · refine (tri_newEmpty false ho).bind ho fun s1 o1 t' _ _ h => ?_
      intro t'' v' ht
      cases ht
      have k1 : t'.cold s1 = 0 := Trie.cold_small (by rw [h.2.1]; omega)
      exact ⟨h.1, by omega, fun h => h.elim⟩
    · exact fun _ _ h => nomatch h
  | ext a n c ih =>
    intro s o k ho hk hx
    obtain ⟨hn, hbh, hcx⟩ := hx
    have hc : Owned o c := hk c (by simp [Trie.kids])
    have hcold : (Trie.ext a n c).coldN s = c.cold s := by simp [Trie.coldN, Trie.kids]
    unfold deleteIntern
    refine Tri.lift fun same _ => ?_
    split
    · refine Tri.lift fun rest hr => ?_
      have hrest := truncateFront_count hr
      refine (ih rest ho (hc.kids ho) hcx).bind ho fun s1 o1 r hl ho1 h => ?_
      cases r with
      | none => exact fun _ _ h => nomatch h
      | some u =>
        obtain ⟨u, d⟩ := u
        obtain ⟨g1, g2, g3⟩ := h u d rfl
        refine (tri_collapse ho1 n g1).bind ho1 fun s2 o2 t' _ _ h2 => ?_
        intro t'' v' ht
        cases ht
        refine ⟨h2.1, ?_, fun h => h.elim⟩
        have k1 := h2.2
        have k3 := c.coldN_le s
        rw [hcold]
        have k4 : rest.count + 1 ≤ k.count ∨ rest.count = 0 := by omega
        rcases k4 with k4 | k4
        · omega
        · have := g3 hbh k4
          omega
    · exact fun _ _ h => nomatch h
  | branch a cs v ih =>
    intro s o k ho hk hx
    have hw : ∀ i, Owned o (cs i) := fun i => hk _ (by simp [Trie.kids])
    unfold deleteIntern
    rw [Trie.coldN_branch]
    split
    · refine (tri_newBranch false ho [] hw).bind ho fun s1 o1 t' _ _ h => ?_
      intro t'' v' ht
      cases ht
      obtain ⟨h, hl, b, rfl⟩ := h
      suffices hs : (Trie.branch b cs []).cold s1 ≤ (sum16 fun i => (cs i).cold s) + 1 from
        ⟨h, by omega, fun _ _ => hs⟩
      have k1 := Trie.cold_branch_le s1 b cs []
      have k2 : (sum16 fun i => (cs i).cold s1) ≤ sum16 fun i => (cs i).cold s :=
        sum16_le fun i => Trie.cold_mono hl ho _ (hw i)
      omega
    · rename_i hne
      refine Tri.lift fun r hr => ?_
      obtain ⟨nib, rest⟩ := r
      have hrest := popNextFront_count hr
      have hpos : k.count ≠ 0 := by simpa [Nibbles.isEmpty] using hne
      refine Tri.lift fun i _ => ?_
      refine (ih i rest ho ((hw i).kids ho) (hx i)).bind ho fun s1 o1 r hl ho1 h => ?_
      cases r with
      | none => exact fun _ _ h => nomatch h
      | some u =>
        obtain ⟨u, d⟩ := u
        obtain ⟨g1, g2, -⟩ := h u d rfl
        have k5 := (cs i).coldN_le s
        have k6 : (cs i).cold s ≤ sum16 fun j => (cs j).cold s := le_sum16 (fun j => (cs j).cold s) i
        refine Tri.bind (Q := fun s' o' t' => Owned o' t' ∧
          t'.cold s' ≤ (sum16 fun j => (cs j).cold s) + 2 * k.count + 2) ?_ ho1 ?_
        · split
          · refine (tri_tryCollapse ho1 g1).bind ho1 fun s2 o2 c hl2 ho2 h2 => ?_
            have hw1 : ∀ j, Owned o2 (upd cs i c j) := by
              intro j
              unfold upd
              split
              · exact h2.1
              · exact (hw j).le (hl.trans hl2)
            refine (tri_newBranch false ho2 v hw1).mono ho2 fun s3 o3 t' _ _ h3 => ?_
            obtain ⟨h3, hl3, b, rfl⟩ := h3
            refine ⟨h3, ?_⟩
            have k1 := Trie.cold_branch_le s3 b (upd cs i c) v
            have k2 : (sum16 fun j => (upd cs i c j).cold s3) ≤
                sum16 fun j => upd (fun j => (cs j).cold s) i (c.cold s2) j := by
              refine sum16_le fun j => ?_
              refine Nat.le_trans (Trie.cold_mono hl3 ho2 _ (hw1 j)) ?_
              unfold upd
              split
              · exact Nat.le_refl _
              · exact Trie.cold_mono (hl.trans hl2) ho _ (hw j)
            have k4 := sum16_upd (fun n : Nat => n) (fun j => (cs j).cold s) i (c.cold s2)
            have k7 := h2.2
            omega
          · refine Tri.lift fun r hr => ?_
            obtain ⟨m, u'⟩ := r
            refine Tri.lift fun nn _ => ?_
            have hu' : ∃ j, u' = cs j := by
              unfold getOtherNonEmptyChild at hr
              split at hr
              · cases hr; exact ⟨_, rfl⟩
              · cases hr
            obtain ⟨j, rfl⟩ := hu'
            refine (tri_newExt false ho1 nn ((hw j).le hl)).mono ho1 fun s3 o3 t' hl3 _ h3 => ?_
            obtain ⟨h3, _, b, rfl⟩ := h3
            refine ⟨h3, ?_⟩
            have k1 := Trie.cold_ext_le s3 b nn (cs j)
            have k2 : (cs j).cold s3 ≤ (cs j).cold s := Trie.cold_mono (hl.trans hl3) ho _ (hw j)
            have k7 : (cs j).cold s ≤ sum16 fun j => (cs j).cold s := le_sum16 (fun j => (cs j).cold s) j
            omega
        · intro s2 o2 t' _ _ h2
          intro t'' v' ht
          cases ht
          exact ⟨h2.1, h2.2, fun _ h => absurd h hpos⟩

/-! ## The calls that change a trie -/

theorem Trie.ann_setAnn (t : Trie CellId) (a : CellId) : (t.setAnn a).ann = a := by
  cases t <;> rfl

theorem Trie.coldN_setAnn (s : Heap) (t : Trie CellId) (a : CellId) :
    (t.setAnn a).coldN s = t.coldN s := by
  unfold coldN
  rw [kids_setAnn]

theorem Trie.XOK_setAnn {t : Trie CellId} (h : t.XOK) (a : CellId) : (t.setAnn a).XOK := by
  cases t <;> exact h

theorem RootOK.setAnn (h : RootOK s o t) (ho' : OwnOK s o) {t' : Trie CellId} (ht : Owned o t') :
    RootOK s o (t'.setAnn t.ann) :=
  ⟨by unfold KidsOwned; rw [Trie.kids_setAnn]; exact ht.kids ho', by rw [Trie.ann_setAnn]; exact h.none,
    by rw [Trie.ann_setAnn]; exact h.lt⟩

theorem tri_trieInsert (ho : OwnOK s o) (ht : RootOK s o t) (hx : t.XOK) (k : Nibbles) (v : ValOrHash) :
    Tri (trieInsert P t k v) s o fun s' o' t' => RootOK s' o' t' ∧ t'.XOK ∧
      t'.coldN s' ≤ t.coldN s + k.count + 3 := by
  unfold trieInsert
  refine (tri_insertRec t ⟨k, v⟩ ho ht.kids hx).bind ho fun s1 o1 r hl ho1 h => ?_
  cases r with
  | none => trivial
  | some t' =>
    obtain ⟨g1, g2, g3, -⟩ := h t' rfl
    refine ⟨(ht.le hl).setAnn ho1 g1, Trie.XOK_setAnn g3 _, ?_⟩
    rw [Trie.coldN_setAnn]
    exact Nat.le_trans (t'.coldN_le s1) g2

/-- How much is inserted. -/
def keysWork (xs : List (Nibbles × ValOrHash)) : Nat := (xs.map fun x => x.1.count + 3).sum

theorem tri_trieExtend : ∀ (xs : List (Nibbles × ValOrHash)) {s : Heap} {o : Owner} {t : Trie CellId},
    OwnOK s o → RootOK s o t → t.XOK →
    Tri (trieExtend P t xs) s o fun s' o' t' => RootOK s' o' t' ∧ t'.XOK ∧
      t'.coldN s' ≤ t.coldN s + keysWork xs
  | [], s, o, t, _, ht, hx => ⟨ht, hx, Nat.le_refl _⟩
  | (k, v) :: xs, s, o, t, ho, ht, hx => by
    unfold trieExtend
    refine (tri_trieInsert ho ht hx k v).bind ho fun s1 o1 t1 hl ho1 h1 => ?_
    refine (tri_trieExtend xs ho1 h1.1 h1.2.1).mono ho1 fun s2 o2 t2 _ _ h2 => ?_
    refine ⟨h2.1, h2.2.1, ?_⟩
    have k1 := h1.2.2
    have k2 := h2.2.2
    simp only [keysWork, List.map_cons, List.sum_cons] at k2 ⊢
    omega

theorem own_extendUntil : ∀ (xs : List (Nibbles × ValOrHash)) {s : Heap} {o : Owner} {t : Trie CellId},
    OwnOK s o → RootOK s o t → t.XOK → ∃ o', OwnLe s o (extendUntil P t xs s).2 o' ∧
      OwnOK (extendUntil P t xs s).2 o' ∧ RootOK (extendUntil P t xs s).2 o' (extendUntil P t xs s).1 ∧
      (extendUntil P t xs s).1.coldN (extendUntil P t xs s).2 ≤ t.coldN s + keysWork xs
  | [], s, o, t, ho, ht, _ => ⟨o, .refl _ _, ho, ht, Nat.le_refl _⟩
  | (k, v) :: xs, s, o, t, ho, ht, hx => by
    have h := tri_trieInsert (P := P) ho ht hx k v
    unfold extendUntil
    cases hr : (trieInsert P t k v).run s with
    | error e =>
      obtain ⟨o1, hl, ho1⟩ := h.stop ho
      refine ⟨o1, hl, ho1, ht.le hl, ?_⟩
      have := Trie.coldN_mono hl ho ht.kids
      simp only
      omega
    | ok r =>
      obtain ⟨t1, s1⟩ := r
      obtain ⟨o1, hl, ho1, g1, g2, g3⟩ := h.run ho hr
      obtain ⟨o2, k1, k2, k3, k4⟩ := own_extendUntil xs ho1 g1 g2
      refine ⟨o2, hl.trans k1, k2, k3, ?_⟩
      simp only [keysWork, List.map_cons, List.sum_cons] at k4 ⊢
      omega

theorem tri_setHash {Q : Heap → Owner → Unit → Prop} (ho : OwnOK s o) (ht : RootOK s o t)
    (h : ∀ s', OwnLe s o s' o → OwnOK s' o → Q s' o ()) : Tri (setHash t none) s o Q := by
  obtain ⟨h1, h2⟩ := own_root ho ht.none none
  exact ⟨h1, h2, h _ h1 h2⟩

theorem tri_insert (ho : OwnOK s o) (ht : RootOK s o t) (hx : t.XOK) (k : Nibbles) (v : ValOrHash) :
    Tri (t.insert P k v) s o fun s' o' t' => RootOK s' o' t' ∧
      t'.coldN s' ≤ t.coldN s + k.count + 3 := by
  unfold Trie.insert
  refine (tri_trieInsert ho ht hx k v).bind ho fun s1 o1 t' hl ho1 h => ?_
  refine Tri.bind (Q := fun s' o' _ => RootOK s' o' t' ∧ t'.coldN s' ≤ t.coldN s + k.count + 3)
    (tri_setHash ho1 h.1 fun s2 hl2 ho2 => ⟨h.1.le hl2, ?_⟩) ho1 fun _ _ _ _ _ h => h
  exact Nat.le_trans (Trie.coldN_mono hl2 ho1 h.1.kids) h.2.2

theorem tri_extend (ho : OwnOK s o) (ht : RootOK s o t) (hx : t.XOK) (xs : List (Nibbles × ValOrHash)) :
    Tri (t.extend P xs) s o fun s' o' t' => RootOK s' o' t' ∧
      t'.coldN s' ≤ t.coldN s + keysWork xs := by
  unfold Trie.extend
  refine (tri_trieExtend xs ho ht hx).bind ho fun s1 o1 t' hl ho1 h => ?_
  refine Tri.bind (Q := fun s' o' _ => RootOK s' o' t' ∧ t'.coldN s' ≤ t.coldN s + keysWork xs)
    (tri_setHash ho1 h.1 fun s2 hl2 ho2 => ⟨h.1.le hl2, ?_⟩) ho1 fun _ _ _ _ _ h => h
  exact Nat.le_trans (Trie.coldN_mono hl2 ho1 h.1.kids) h.2.2

theorem tri_fromIter (ho : OwnOK s o) (xs : List (Nibbles × ValOrHash)) :
    Tri (fromIter P xs) s o fun s' o' t' => RootOK s' o' t' := by
  unfold fromIter
  refine (tri_newEmpty true ho).bind ho fun s1 o1 t' hl ho1 h => ?_
  exact (tri_extend ho1 h.1 (isEmpty_of_kids h.2.2) xs).mono ho1 fun _ _ _ _ _ h => h.1

theorem tri_trieDelete (ho : OwnOK s o) (ht : RootOK s o t) (hx : t.XOK) (k : Nibbles) :
    Tri (trieDelete P t k) s o fun s' o' r => RootOK s' o' r.1 ∧
      r.1.coldN s' ≤ t.coldN s + 2 * k.count + 3 := by
  unfold trieDelete
  refine (tri_deleteIntern t k ho ht.kids hx).bind ho fun s1 o1 r hl ho1 h => ?_
  cases r with
  | none =>
    refine ⟨ht.le hl, ?_⟩
    have := Trie.coldN_mono hl ho ht.kids
    simp only
    omega
  | some r =>
    obtain ⟨u, d⟩ := r
    obtain ⟨g1, g2, -⟩ := h u d rfl
    refine (tri_tryCollapse ho1 g1).bind ho1 fun s2 o2 c hl2 ho2 h2 => ?_
    refine ⟨((ht.le hl).le hl2).setAnn ho2 h2.1, ?_⟩
    have k1 := c.coldN_le s2
    have k2 := h2.2
    simp only [Trie.coldN_setAnn]
    omega

theorem tri_delete (ho : OwnOK s o) (ht : RootOK s o t) (hx : t.XOK) (k : Nibbles) :
    Tri (t.delete P k) s o fun s' o' r => RootOK s' o' r.1 ∧
      r.1.coldN s' ≤ t.coldN s + 2 * k.count + 3 := by
  unfold Trie.delete
  refine (tri_trieDelete ho ht hx k).bind ho fun s1 o1 r hl ho1 h => ?_
  obtain ⟨t', res⟩ := r
  refine Tri.bind (Q := fun s' o' _ => RootOK s' o' t' ∧ t'.coldN s' ≤ t.coldN s + 2 * k.count + 3)
    (tri_setHash ho1 h.1 fun s2 hl2 ho2 => ⟨h.1.le hl2, ?_⟩) ho1 fun _ _ _ _ _ h => h
  exact Nat.le_trans (Trie.coldN_mono hl2 ho1 h.1.kids) h.2

/-! ## Subsets -/

/-- The nodes of the tracked trie are nodes with their own cells; `root` says whether the topmost one
is a root. -/
def Tracked.Fit (s : Heap) (o : Owner) : Bool → Tracked CellId → Prop
  | root, .branch u _ cs => MadeOK root s o u ∧ ∀ i, Fit s o false (cs i)
  | root, .ext u _ c => MadeOK root s o u ∧ Fit s o false c
  | root, .empty u _ => MadeOK root s o u
  | root, .hash u _ => MadeOK root s o u
  | root, .leaf u _ => MadeOK root s o u

theorem Tracked.Fit.u {root : Bool} {tr : Tracked CellId} (h : tr.Fit s o root) :
    MadeOK root s o tr.u := by
  cases tr with
  | branch u b cs => exact h.1
  | ext u b c => exact h.1
  | _ => exact h

theorem Tracked.Fit.le (hl : OwnLe s o s' o') : ∀ {tr : Tracked CellId} {root : Bool},
    tr.Fit s o root → tr.Fit s' o' root := by
  intro tr
  induction tr with
  | branch u b cs ih => exact fun h => ⟨h.1.le hl, fun i => ih i (h.2 i)⟩
  | ext u b c ih => exact fun h => ⟨h.1.le hl, ih h.2⟩
  | _ => exact fun h => MadeOK.le h hl

theorem Tracked.Fit.setTouched {root : Bool} {tr : Tracked CellId} (h : tr.Fit s o root) (b : Bool) :
    (tr.setTouched b).Fit s o root := by
  cases tr <;> exact h

theorem fit_reset {root : Bool} {tr : Tracked CellId} (h : tr.Fit s o root) :
    (resetTracked tr).Fit s o root := by
  cases tr with
  | branch u b cs => exact ⟨h.1, fun i => (h.2 i).setTouched _⟩
  | ext u b c => exact ⟨h.1, h.2.setTouched _⟩
  | _ => exact h

theorem fit_new (ho : OwnOK s o) : ∀ (t : Trie CellId) {root : Bool}, MadeOK root s o t →
    (Tracked.new t).Fit s o root := by
  have kids : ∀ {root : Bool} {t : Trie CellId}, MadeOK root s o t → KidsOwned o t := by
    intro root t h
    cases root with
    | true => exact h.kids
    | false => exact Owned.kids h ho
  intro t
  induction t with
  | branch a cs v ih => exact fun h => ⟨h, fun i => ih i (kids h _ (by simp [Trie.kids]))⟩
  | ext a n c ih => exact fun h => ⟨h, ih (kids h _ (by simp [Trie.kids]))⟩
  | _ => exact fun h => h

theorem fit_mark : ∀ (tr : Tracked CellId) (k : Nibbles) {tr' : Tracked CellId} {root : Bool},
    mark P tr k = .ok (.ok tr') → tr.Fit s o root → tr'.Fit s o root := by
  intro tr
  induction tr with
  | empty u b => intro k tr' root h hf; cases h; exact hf
  | leaf u b => intro k tr' root h hf; cases h; exact hf
  | hash u b =>
    intro k tr' root h hf
    unfold mark at h
    split at h
    · cases h
    · cases h; exact hf
  | branch u b cs ih =>
    intro k tr' root h hf
    unfold mark at h
    split at h
    · cases h; exact hf
    · obtain ⟨r, -, h⟩ := R_of_bind_ok h
      obtain ⟨nib, rest⟩ := r
      obtain ⟨i, -, h⟩ := R_of_bind_ok h
      obtain ⟨r, hr, h⟩ := R_of_bind_ok h
      cases r with
      | error e => cases h
      | ok c =>
        cases h
        refine ⟨hf.1, fun j => ?_⟩
        unfold upd
        split
        · exact ih i rest hr (hf.2 i)
        · exact hf.2 j
  | ext u b c ih =>
    intro k tr' root h hf
    unfold mark at h
    obtain ⟨n, -, h⟩ := R_of_bind_ok h
    obtain ⟨r, -, h⟩ := R_of_bind_ok h
    obtain ⟨r, rest⟩ := r
    obtain ⟨same, -, h⟩ := R_of_bind_ok h
    cases same with
    | false => cases h; exact hf
    | true =>
      obtain ⟨r, hr, h⟩ := R_of_bind_ok h
      cases r with
      | error e => cases h
      | ok c' =>
        cases h
        exact ⟨hf.1, ih rest hr hf.2⟩

theorem fit_markAll : ∀ (ks : List Nibbles) {tr tr' : Tracked CellId} {root : Bool},
    markAll P tr ks = .ok (.ok tr') → tr.Fit s o root → tr'.Fit s o root
  | [], tr, tr', root, h, hf => by cases h; exact hf
  | k :: ks, tr, tr', root, h, hf => by
    unfold markAll at h
    obtain ⟨r, hr, h⟩ := R_of_bind_ok h
    cases r with
    | error e => cases h
    | ok t1 => exact fit_markAll ks h (fit_mark tr k hr hf)

theorem tri_hashAway {root : Bool} {tr : Tracked CellId} (ho : OwnOK s o) (h : tr.Fit s o root) :
    Tri (hashAway P kec tr) s o fun _ _ _ => True := by
  unfold hashAway
  split
  · refine Tri.bind (Q := fun _ _ _ => True) ?_ ho fun s1 o1 e _ _ _ => ?_
    · cases root with
      | true => exact (tri_hashInternRoot ho h.u).mono ho fun _ _ _ _ _ _ => trivial
      | false => exact (tri_hashIntern ho h.u).mono ho fun _ _ _ _ _ _ => trivial
    · cases e <;> trivial
  · trivial

theorem tri_seqMade : ∀ (ps : List (Prog CellId (Trie CellId))) {s : Heap} {o : Owner}, OwnOK s o →
    (∀ p ∈ ps, ∀ s' o', OwnLe s o s' o' → OwnOK s' o' → Tri p s' o' fun _ o' t => Owned o' t) →
    Tri (Prog.seq ps) s o fun _ o' ts => ∀ t ∈ ts, Owned o' t
  | [], s, o, _, _ => fun _ h => by cases h
  | p :: ps, s, o, ho, hp => by
    unfold Prog.seq
    refine (hp p (by simp) s o (.refl _ _) ho).bind ho fun s1 o1 t hl ho1 h1 => ?_
    refine (tri_seqMade ps ho1 fun q hq s' o' h => hp q (by simp [hq]) s' o' (hl.trans h)).bind ho1
      fun s2 o2 ts hl2 ho2 h2 => ?_
    intro u hu
    rcases List.mem_cons.1 hu with rfl | hu
    · exact h1.le hl2
    · exact h2 u hu

theorem tri_createSubset : ∀ (tr : Tracked CellId) {s : Heap} {o : Owner} {root : Bool}, OwnOK s o →
    tr.Fit s o root → Tri (createSubset P kec tr) s o fun s' o' t => MadeOK root s' o' t := by
  intro tr
  induction tr with
  | empty u b =>
    intro s o root ho hf
    unfold createSubset
    refine (tri_hashAway ho hf).bind ho fun s1 o1 x hl ho1 _ => ?_
    cases x with
    | some x => exact (tri_newHash root ho1 x).mono ho1 fun _ _ _ _ _ h => h.1
    | none => exact (tri_newEmpty root ho1).mono ho1 fun _ _ _ _ _ h => h.1
  | hash u b =>
    intro s o root ho hf
    unfold createSubset
    refine (tri_hashAway ho hf).bind ho fun s1 o1 x hl ho1 _ => ?_
    cases x with
    | some x => exact (tri_newHash root ho1 x).mono ho1 fun _ _ _ _ _ h => h.1
    | none =>
      refine Tri.lift fun x _ => ?_
      exact (tri_newHash root ho1 x).mono ho1 fun _ _ _ _ _ h => h.1
  | leaf u b =>
    intro s o root ho hf
    unfold createSubset
    refine (tri_hashAway ho hf).bind ho fun s1 o1 x hl ho1 _ => ?_
    cases x with
    | some x => exact (tri_newHash root ho1 x).mono ho1 fun _ _ _ _ _ h => h.1
    | none =>
      refine Tri.lift fun x _ => ?_
      exact (tri_newLeaf root ho1 x.1 x.2).mono ho1 fun _ _ _ _ _ h => h.1
  | ext u b c ih =>
    intro s o root ho hf
    unfold createSubset
    refine (tri_hashAway ho hf).bind ho fun s1 o1 x hl ho1 _ => ?_
    cases x with
    | some x => exact (tri_newHash root ho1 x).mono ho1 fun _ _ _ _ _ h => h.1
    | none =>
      refine Tri.lift fun n _ => ?_
      refine (ih ho1 (hf.2.le hl)).bind ho1 fun s2 o2 t hl2 ho2 h2 => ?_
      exact (tri_newExt root ho2 n h2).mono ho2 fun _ _ _ _ _ h => h.1
  | branch u b cs ih =>
    intro s o root ho hf
    unfold createSubset
    refine (tri_hashAway ho hf).bind ho fun s1 o1 x hl ho1 _ => ?_
    cases x with
    | some x => exact (tri_newHash root ho1 x).mono ho1 fun _ _ _ _ _ h => h.1
    | none =>
      refine Tri.lift fun v _ => ?_
      refine (tri_seqMade _ ho1 fun p hp s' o' hl' ho' => ?_).bind ho1 fun s2 o2 ts hl2 ho2 h2 => ?_
      · obtain ⟨i, _, rfl⟩ := List.mem_map.1 hp
        exact ih i ho' ((hf.2 i).le (hl.trans hl'))
      · refine Tri.lift fun e he => ?_
        have hm : ∀ i : Fin 16, Owned o2 (ts.getD i.val e) := by
          intro i
          rw [List.getD_eq_getElem?_getD]
          cases hx : ts[i.val]? with
          | some x => exact h2 x (List.mem_of_getElem? hx)
          | none =>
            refine h2 e ?_
            unfold rindex at he
            split at he
            · cases he; exact List.mem_of_getElem? ‹_›
            · cases he
        exact (tri_newBranch root ho2 v hm).mono ho2 fun _ _ _ _ _ h => h.1

theorem tri_subset (ho : OwnOK s o) (ht : RootOK s o t) (ks : List Nibbles) :
    Tri (createTrieSubset P kec t ks) s o fun s' o' r => ∀ t', r = .ok t' → RootOK s' o' t' := by
  unfold createTrieSubset
  refine Tri.lift fun r hr => ?_
  cases r with
  | error e => exact fun _ h => nomatch h
  | ok tr =>
    refine (tri_createSubset (root := true) tr ho (fit_markAll ks hr (fit_new ho t ht))).bind ho
      fun s1 o1 t' _ _ h => ?_
    intro t'' h'
    cases h'
    exact h

theorem tri_subsetsFrom : ∀ (kss : List (List Nibbles)) {tr : Tracked CellId} {s : Heap} {o : Owner},
    OwnOK s o → tr.Fit s o true →
    Tri (createTrieSubsetsFrom P kec tr kss) s o fun s' o' r => ∀ ts, r = .ok ts →
      ∀ t ∈ ts, RootOK s' o' t
  | [], tr, s, o, _, _ => fun ts h => by cases h; exact fun _ h => by cases h
  | ks :: kss, tr, s, o, ho, hf => by
    unfold createTrieSubsetsFrom
    refine Tri.lift fun r hr => ?_
    cases r with
    | error e => exact fun _ h => nomatch h
    | ok tr' =>
      have hf' := fit_markAll ks hr hf
      refine (tri_createSubset (root := true) tr' ho hf').bind ho fun s1 o1 t' hl ho1 h1 => ?_
      refine (tri_subsetsFrom kss ho1 (fit_reset (hf'.le hl))).bind ho1 fun s2 o2 r hl2 ho2 h2 => ?_
      cases r with
      | error e => exact fun _ h => nomatch h
      | ok ts =>
        intro ts' h'
        cases h'
        intro u hu
        rcases List.mem_cons.1 hu with rfl | hu
        · exact RootOK.le h1 hl2
        · exact h2 ts rfl u hu

theorem tri_subsets (ho : OwnOK s o) (ht : RootOK s o t) (kss : List (List Nibbles)) :
    Tri (createTrieSubsets P kec t kss) s o fun s' o' r => ∀ ts, r = .ok ts → ∀ t ∈ ts, RootOK s' o' t :=
  tri_subsetsFrom kss ho (fit_new ho t ht)

end EthTrie
