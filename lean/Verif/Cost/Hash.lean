import Verif.Cost.Own
import Mathlib.Data.List.Forall2

/-!
# Hashing fills the cells that need to be filled, and looks at few nodes then
-/

namespace EthTrie

open Nibbles

variable {P : Profile} {kec : Bytes → H256} {s s' : Heap} {o : Owner} {t : Trie CellId}

/-! ## Small encodings have few nodes -/

theorem rlpHeader_pos (off len : Nat) : 1 ≤ (rlpHeader off len).length := by
  unfold rlpHeader
  split <;> simp

theorem rlpValue_pos (bs : Bytes) : 1 ≤ (rlpValue bs).length := by
  unfold rlpValue
  split
  · split
    · simp
    · simp
  · have := rlpHeader_pos 0x80 bs.length
    simp only [List.length_append]
    omega

theorem rlpValue_hash (h : H256) : 32 ≤ (rlpValue h.toList).length := by
  have hl : h.toList.length = 32 := by simp
  unfold rlpValue
  split
  · rename_i b e
    rw [e] at hl
    cases hl
  · simp only [List.length_append]
    omega

theorem rlpList_length (xs : List Bytes) : 1 + (xs.map List.length).sum ≤ (rlpList xs).length := by
  unfold rlpList
  simp only [List.length_append, List.length_flatten]
  have := rlpHeader_pos 0xc0 (xs.map List.length).sum
  omega

theorem rlpList_snoc {b last : Bytes} {xs : List Bytes} (h : b = rlpList (xs ++ [last])) :
    1 + (xs.map List.length).sum ≤ b.length := by
  subst h
  have := rlpList_length (xs ++ [last])
  rw [List.map_append, List.sum_append] at this
  omega

theorem hashIfLarge_raw {bs b : Bytes} (h : hashIfLarge kec bs = .raw b) : b = bs ∧ b.length < 32 := by
  unfold hashIfLarge at h
  split at h
  · rename_i e
    cases h
    simp only [ge_iff_le, decide_eq_false_iff_not, not_le] at e
    exact ⟨rfl, e⟩
  · cases h

/-- A short encoding of a child is at least as long as the child has nodes. -/
def EncBound (e : EncodedNode) (n : Nat) : Prop :=
  ∀ b, e = .raw b → n ≤ b.length ∧ b.length < 32

theorem EncBound.item {e : EncodedNode} {n : Nat} (h : EncBound e n) :
    n ≤ e.item.length ∨ 32 ≤ e.item.length := by
  cases e with
  | raw b => exact .inl (h b rfl).1
  | hashed x => exact .inr (rlpValue_hash x)

theorem encBound_sum : ∀ {vs : List (Trie CellId)} {es : List EncodedNode},
    List.Forall₂ (fun v e => EncBound e v.nodeCount) vs es →
    (vs.map Trie.nodeCount).sum ≤ ((es.map EncodedNode.item).map List.length).sum ∨
      32 ≤ ((es.map EncodedNode.item).map List.length).sum := by
  intro vs es h
  induction h with
  | nil => exact .inl (Nat.le_refl _)
  | cons h _ ih =>
    simp only [List.map_cons, List.sum_cons]
    rcases h.item with h | h
    · rcases ih with ih | ih
      · left; omega
      · right; omega
    · right; omega

/-! ## Hashing and owners -/

theorem tri_cached (ht : Owned o t) (ho : OwnOK s o)
    (ih : Tri (encodeNode P kec t) s o fun s' o' e => o' = o ∧ (∀ v ∈ t.kids, v.Hot s') ∧
      EncBound e t.nodeCount) :
    Tri (cached t.ann (encodeNode P kec t)) s o fun s' o' e => o' = o ∧ t.Hot s' ∧
      EncBound e t.nodeCount := by
  show Tri (match TrieKind.cacheGet t.ann s with
    | some h => Prog.ret (EncodedNode.hashed h)
    | none => _) s o _
  cases hc : TrieKind.cacheGet t.ann s with
  | some x =>
    refine ⟨rfl, ho.hot ht ?_, fun b hb => nomatch hb⟩
    intro e
    have e' : s.cell t.ann.id = some x := hc
    rw [e] at e'
    cases e'
  | none =>
    refine ih.bind ho fun s1 o1 e hl ho1 hq => ?_
    obtain ⟨rfl, hk, hb⟩ := hq
    cases e with
    | hashed x =>
      obtain ⟨h1, h2, h3⟩ := own_fill (x := x) ho1 ht hk
      exact ⟨h1, h2, rfl, h3, fun b hb => nomatch hb⟩
    | raw b =>
      obtain ⟨h1, h2⟩ := hb b rfl
      exact ⟨rfl, .small (by omega), hb⟩

theorem tri_seq : ∀ (vs : List (Trie CellId)) {s : Heap}, OwnOK s o → (∀ v ∈ vs, Owned o v) →
    (∀ v ∈ vs, ∀ s, OwnOK s o → Tri (cached v.ann (encodeNode P kec v)) s o
      fun s' o' e => o' = o ∧ v.Hot s' ∧ EncBound e v.nodeCount) →
    Tri (Prog.seq (vs.map fun v => cached v.ann (encodeNode P kec v))) s o fun s' o' es => o' = o ∧
      (∀ v ∈ vs, v.Hot s') ∧ List.Forall₂ (fun v e => EncBound e v.nodeCount) vs es := by
  intro vs
  induction vs with
  | nil => intro s ho _ _; exact ⟨rfl, by simp, .nil⟩
  | cons v vs ih =>
    intro s ho hw hh
    refine Tri.bind (hh v (by simp) s ho) ho fun s1 o1 e hl ho1 hq => ?_
    obtain ⟨rfl, hv, hb⟩ := hq
    refine Tri.bind (ih ho1 (fun v hv => hw v (by simp [hv])) fun v hv => hh v (by simp [hv])) ho1
      fun s2 o2 es hl2 ho2 hq => ?_
    obtain ⟨rfl, hvs, hbs⟩ := hq
    refine ⟨rfl, fun u hu => ?_, .cons hb hbs⟩
    rcases List.mem_cons.1 hu with rfl | hu
    · exact hv.mono hl2 ho1 (hw _ (by simp))
    · exact hvs u hu

theorem tri_encode : ∀ (t : Trie CellId) (s : Heap), OwnOK s o → KidsOwned o t →
    Tri (encodeNode P kec t) s o fun s' o' e => o' = o ∧ (∀ v ∈ t.kids, v.Hot s') ∧
      EncBound e t.nodeCount := by
  intro t
  induction t with
  | empty a =>
    intro s ho hk
    refine ⟨rfl, by simp [Trie.kids], fun b hb => ?_⟩
    cases hb
    exact ⟨Nat.le_refl _, by decide⟩
  | hash a x =>
    intro s ho hk
    exact ⟨rfl, by simp [Trie.kids], fun b hb => nomatch hb⟩
  | leaf a n v =>
    intro s ho hk
    unfold encodeNode
    refine Tri.lift fun hp _ => ⟨rfl, by simp [Trie.kids], fun b hb => ?_⟩
    obtain ⟨rfl, hb⟩ := hashIfLarge_raw hb
    refine ⟨?_, hb⟩
    have := rlpList_length [rlpValue hp, rlpValue v]
    simp only [Trie.nodeCount]
    omega
  | ext a n c ih =>
    intro s ho hk
    unfold encodeNode
    refine Tri.lift fun hp _ => ?_
    have hc : Owned o c := hk c (by simp [Trie.kids])
    refine Tri.bind (tri_cached hc ho (ih s ho (hc.kids ho))) ho fun s1 o1 e hl ho1 hq => ?_
    obtain ⟨rfl, hv, hb⟩ := hq
    refine ⟨rfl, by simpa [Trie.kids] using hv, fun b hb' => ?_⟩
    obtain ⟨rfl, hlt⟩ := hashIfLarge_raw hb'
    refine ⟨?_, hlt⟩
    have h1 := rlpList_length [rlpValue hp, e.item]
    have h2 := rlpValue_pos hp
    simp only [List.map_cons, List.map_nil, List.sum_cons, List.sum_nil] at h1
    simp only [Trie.nodeCount]
    rcases hb.item with h | h <;> omega
  | branch a cs v ih =>
    intro s ho hk
    unfold encodeNode
    have hw : ∀ i, Owned o (cs i) := fun i => hk _ (by simp [Trie.kids])
    have key := tri_seq (P := P) (kec := kec) ((List.finRange 16).map cs) ho
      (by simpa using hw) (by
        simp only [List.mem_map, List.mem_finRange, true_and, forall_exists_index,
          forall_apply_eq_imp_iff]
        exact fun i s ho => tri_cached (hw i) ho (ih i s ho ((hw i).kids ho)))
    rw [List.map_map] at key
    refine Tri.bind key ho fun s1 o1 es hl ho1 hq => ?_
    obtain ⟨rfl, hv, hb⟩ := hq
    refine ⟨rfl, hv, fun b hb' => ?_⟩
    obtain ⟨hb1, hlt⟩ := hashIfLarge_raw hb'
    refine ⟨?_, hlt⟩
    have h1 := rlpList_snoc hb1
    rw [Trie.nodeCount_eq]
    simp only [Trie.kids]
    rcases encBound_sum hb with h | h <;> omega

theorem tri_hashIntern (ho : OwnOK s o) (ht : Owned o t) :
    Tri (hashIntern P kec t) s o fun s' o' e => o' = o ∧ t.Hot s' ∧ EncBound e t.nodeCount :=
  tri_cached ht ho (tri_encode t s ho (ht.kids ho))

/-- `hash_intern` of a root. -/
theorem tri_hashInternRoot (ho : OwnOK s o) (ht : RootOK s o t) :
    Tri (hashIntern P kec t) s o fun _ o' _ => o' = o := by
  show Tri (match TrieKind.cacheGet t.ann s with
    | some h => Prog.ret (EncodedNode.hashed h)
    | none => _) s o _
  cases hc : TrieKind.cacheGet t.ann s with
  | some x => exact rfl
  | none =>
    refine Tri.bind (tri_encode t s ho ht.kids) ho fun s1 o1 e hl ho1 hq => ?_
    obtain ⟨rfl, hk, hb⟩ := hq
    cases e with
    | hashed x =>
      obtain ⟨h1, h2⟩ := own_root ho1 ht.none (some x)
      exact ⟨h1, h2, rfl⟩
    | raw b => exact rfl

/-- `hash()`: everything below the root is hot afterwards, unless the hash was cached. -/
theorem tri_rootHash (ho : OwnOK s o) (ht : RootOK s o t) :
    Tri (t.rootHash P kec) s o fun s' o' _ => o' = o ∧
      (s.cell t.ann.id = none → ∀ v ∈ t.kids, v.Hot s') := by
  show Tri (match TrieKind.cacheGet t.ann s with
    | some h => Prog.ret h
    | none => hashTrie P kec t) s o _
  cases hc : TrieKind.cacheGet t.ann s with
  | some x =>
    refine ⟨rfl, fun e => ?_⟩
    have e' : s.cell t.ann.id = some x := hc
    rw [e] at e'
    cases e'
  | none =>
    refine Tri.bind (tri_encode t s ho ht.kids) ho fun s1 o1 e hl ho1 hq => ?_
    exact ⟨hq.1, fun _ => hq.2.1⟩

/-! ## How many nodes hashing looks at -/

/-- No cell is emptied. -/
def Fill (s s' : Heap) : Prop := ∀ c, s.cell c ≠ none → s'.cell c ≠ none

theorem Fill.refl (s : Heap) : Fill s s := fun _ h => h

theorem Fill.trans {s1 s2 s3 : Heap} (h1 : Fill s1 s2) (h2 : Fill s2 s3) : Fill s1 s3 :=
  fun c h => h2 c (h1 c h)

/-- The program makes no cells and empties none. -/
def OnlyFills {A : Type} : Prog CellId A → Prop
  | .ret _ => True
  | .panic _ => True
  | .alloc _ => False
  | .read _ k => ∀ x, OnlyFills (k x)
  | .write _ v k => v ≠ none ∧ OnlyFills k

theorem OnlyFills.run {A : Type} {p : Prog CellId A} (h : OnlyFills p) {s s' : Heap} {a : A}
    (hr : p.run s = .ok (a, s')) : Fill s s' := by
  induction p generalizing s with
  | ret b => cases hr; exact .refl _
  | panic e => cases hr
  | alloc k ih => exact h.elim
  | read b k ih => exact ih _ (h _) hr
  | write b v k ih =>
    refine Fill.trans (fun c hc => ?_) (ih h.2 hr)
    show upd s.cell b.id v c ≠ none
    by_cases e : c = b.id
    · subst e; rw [upd_same]; exact h.1
    · rw [upd_other _ _ e]; exact hc

theorem OnlyFills.bind {A B : Type} {p : Prog CellId A} {f : A → Prog CellId B} (h : OnlyFills p)
    (hf : ∀ a, OnlyFills (f a)) : OnlyFills (p.bind f) := by
  induction p with
  | ret b => exact hf b
  | panic e => trivial
  | alloc k ih => exact h.elim
  | read b k ih => exact fun x => ih x (h x)
  | write b v k ih => exact ⟨h.1, ih h.2⟩

theorem onlyFills_seq {A : Type} : ∀ {ps : List (Prog CellId A)}, (∀ p ∈ ps, OnlyFills p) →
    OnlyFills (Prog.seq ps)
  | [], _ => trivial
  | p :: ps, h => (h p (by simp)).bind fun _ =>
      (onlyFills_seq fun q hq => h q (by simp [hq])).bind fun _ => trivial

theorem onlyFills_cached {a : CellId} {p : Prog CellId EncodedNode} (h : OnlyFills p) :
    OnlyFills (cached a p) := by
  intro x
  cases x with
  | some x => trivial
  | none =>
    refine h.bind fun e => ?_
    cases e with
    | hashed x => exact ⟨by simp, trivial⟩
    | raw b => trivial

theorem onlyFills_lift {A : Type} (r : R A) : OnlyFills (Prog.lift r : Prog CellId A) := by
  cases r <;> trivial

theorem onlyFills_encode : ∀ t : Trie CellId, OnlyFills (encodeNode P kec t) := by
  intro t
  induction t with
  | empty a => trivial
  | hash a x => trivial
  | leaf a n v => exact (onlyFills_lift _).bind fun _ => trivial
  | ext a n c ih => exact (onlyFills_lift _).bind fun _ => (onlyFills_cached ih).bind fun _ => trivial
  | branch a cs v ih =>
    refine (onlyFills_seq fun p hp => ?_).bind fun _ => trivial
    obtain ⟨i, _, rfl⟩ := List.mem_map.1 hp
    exact onlyFills_cached (ih i)

theorem Trie.cost_fill (h : Fill s s') : ∀ t : Trie CellId, t.cost s' ≤ t.cost s := by
  refine Trie.kidsInd fun t ih => ?_
  rw [cost_eq, cost_eq]
  have h1 : t.costN s' ≤ t.costN s := sum_le_of _ ih
  have h2 := h t.ann.id
  split <;> split <;> first | omega | skip
  rename_i h3 h4
  exact absurd h3 (h2 h4)

theorem reads_seq : ∀ (vs : List (Trie CellId)) (s : Heap),
    (∀ v ∈ vs, ∀ s, (cached v.ann (encodeNode P kec v)).reads s ≤ v.cost s) →
    (Prog.seq (vs.map fun v => cached v.ann (encodeNode P kec v))).reads s ≤
      (vs.map (Trie.cost s)).sum := by
  intro vs
  induction vs with
  | nil => intro s _; exact Nat.le_refl _
  | cons v vs ih =>
    intro s h
    simp only [List.map_cons, Prog.seq, List.sum_cons]
    refine Prog.reads_bind_le (h v (by simp) s) fun e s1 hr => ?_
    have h1 := ih s1 fun v hv => h v (by simp [hv])
    have h2 : (vs.map (Trie.cost s1)).sum ≤ (vs.map (Trie.cost s)).sum :=
      sum_le_of _ fun u _ => Trie.cost_fill ((onlyFills_cached (onlyFills_encode v)).run hr) u
    exact Prog.reads_bind_le (m := 0) (Nat.le_trans h1 h2) fun _ _ _ => Nat.le_refl _

theorem reads_cached (h : ∀ s, (encodeNode P kec t).reads s ≤ t.costN s) (s : Heap) :
    (cached t.ann (encodeNode P kec t)).reads s ≤ t.cost s := by
  rw [Trie.cost_eq]
  show 1 + Prog.reads (match TrieKind.cacheGet t.ann s with
    | some h => Prog.ret (EncodedNode.hashed h)
    | none => _) s ≤ _
  refine Nat.add_le_add_left ?_ 1
  cases hc : TrieKind.cacheGet t.ann s with
  | some x => exact Nat.zero_le _
  | none =>
    have hc' : s.cell t.ann.id = none := hc
    rw [if_pos hc']
    refine Prog.reads_bind_le (m := 0) (h s) fun e _ _ => ?_
    cases e <;> exact Nat.le_refl _

theorem reads_encode : ∀ (t : Trie CellId) (s : Heap), (encodeNode P kec t).reads s ≤ t.costN s := by
  intro t
  have lift : ∀ {A B : Type} (r : R A) (f : A → Prog CellId B) (s : Heap) (n : Nat),
      (∀ a, (f a).reads s ≤ n) → ((Prog.lift r).bind f).reads s ≤ n := by
    intro A B r f s n h
    cases r with
    | ok a => exact h a
    | error e => exact Nat.zero_le _
  induction t with
  | empty a => intro s; exact Nat.zero_le _
  | hash a x => intro s; exact Nat.zero_le _
  | leaf a n v => intro s; exact lift _ _ _ _ fun _ => Nat.zero_le _
  | ext a n c ih =>
    intro s
    refine lift _ _ _ _ fun hp => ?_
    refine Prog.reads_bind_le (m := 0) ?_ fun _ _ _ => Nat.le_refl _
    simpa [Trie.costN, Trie.kids] using reads_cached ih s
  | branch a cs v ih =>
    intro s
    unfold encodeNode
    have h1 := reads_seq (P := P) (kec := kec) ((List.finRange 16).map cs) s (by
      simp only [List.mem_map, List.mem_finRange, true_and, forall_exists_index,
        forall_apply_eq_imp_iff]
      exact fun i s => reads_cached (ih i) s)
    rw [List.map_map] at h1
    have h2 : (Trie.branch a cs v).costN s = (((List.finRange 16).map cs).map (Trie.cost s)).sum := by
      simp only [Trie.costN, Trie.kids]
    rw [← Nat.add_zero (Trie.costN s _)]
    refine Prog.reads_bind_le ?_ fun _ _ _ => Nat.zero_le _
    rw [← h2] at h1
    exact h1

/-- The number of nodes that `hash()` looks at. -/
theorem reads_rootHash (t : Trie CellId) (s : Heap) :
    (t.rootHash P kec).reads s ≤ 1 + 496 * (1 + t.coldN s) := by
  show 1 + Prog.reads (match TrieKind.cacheGet t.ann s with
    | some h => Prog.ret h
    | none => hashTrie P kec t) s ≤ _
  refine Nat.add_le_add_left ?_ 1
  cases TrieKind.cacheGet t.ann s with
  | some x => exact Nat.zero_le _
  | none =>
    refine Nat.le_trans ?_ (Trie.costN_cold s t)
    exact Prog.reads_bind_le (m := 0) (reads_encode t s) fun _ _ _ => Nat.le_refl _

theorem reads_rootHash_nodeCount (t : Trie CellId) (s : Heap) : (t.rootHash P kec).reads s ≤ t.nodeCount := by
  show 1 + Prog.reads (match TrieKind.cacheGet t.ann s with
    | some h => Prog.ret h
    | none => hashTrie P kec t) s ≤ _
  rw [Trie.nodeCount_eq]
  refine Nat.add_le_add_left ?_ 1
  cases TrieKind.cacheGet t.ann s with
  | some x => exact Nat.zero_le _
  | none =>
    refine Nat.le_trans (m := t.costN s) ?_ (sum_le_of _ fun v _ => Trie.cost_nodeCount s v)
    exact Prog.reads_bind_le (m := 0) (reads_encode t s) fun _ _ _ => Nat.le_refl _

end EthTrie
