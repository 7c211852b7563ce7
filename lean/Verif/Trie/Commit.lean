import Verif.Hash.Inj
import Verif.Subset.Batch
import Verif.Nibbles.Lemmas3

/-!
# The encoding of a trie determines it, up to collisions
-/

namespace EthTrie
namespace LNode

open Spec

variable {kec : Bytes → H256}

/-- The RLP of a node. -/
def rlp (kec : Bytes → H256) : LNode → Bytes
  | .empty => rlpStr []
  | .hash h => rlpStr h.toList
  | .branch cs v => rlpSeq ((List.finRange 16).map (fun i => (enc kec (cs i)).item) ++ [rlpStr v])
  | .ext n c => rlpSeq [rlpStr (HP n false), (enc kec c).item]
  | .leaf n v => rlpSeq [rlpStr (HP n true), rlpStr v]

/-- Lengths are small enough for RLP. -/
def Small : LNode → Prop
  | .empty => True
  | .hash _ => True
  | .branch cs v => v.length < 2 ^ 64 ∧ ∀ i, Small (cs i)
  | .ext n c => n.length ≤ 128 ∧ Small c
  | .leaf n v => n.length ≤ 128 ∧ v.length < 2 ^ 64

/-- Is the node a hash node? -/
def IsHash : LNode → Prop
  | .hash _ => True
  | _ => False

theorem enc_rlp {l : LNode} (h : ¬ l.IsHash) : l.enc kec = hashIfLarge kec (l.rlp kec) := by
  cases l with
  | empty => rfl
  | hash x => exact absurd trivial h
  | branch cs v =>
    rw [enc, rlp, rlpList_eq]
    split
    · rename_i hv; subst hv; rfl
    · rw [rlpValue_eq]
  | ext n c => rw [enc, rlp, rlpList_eq, rlpValue_eq]
  | leaf n v => rw [enc, rlp, rlpList_eq, rlpValue_eq, rlpValue_eq]

theorem rlpStr_32 (h : H256) : (rlpStr h.toList).length = 33 := by
  unfold rlpStr
  simp

theorem rlpSeq_item {xs : List Bytes} (h : (rlpSeq xs).length < 32) : RlpItem (rlpSeq xs) := by
  unfold rlpSeq at h ⊢
  split
  · exact .list _ (by assumption)
  · rename_i h1
    rw [if_neg h1] at h
    simp only [List.length_cons, List.length_append] at h
    omega

theorem item_item (l : LNode) : RlpItem (l.enc kec).item := by
  have hash : ∀ h : H256, RlpItem (EncodedNode.hashed h).item := fun h => by
    rw [EncodedNode.item, rlpValue_eq]; exact .str _ (by simp)
  have seq : ∀ xs, RlpItem (hashIfLarge kec (rlpSeq xs)).item := fun xs => by
    rw [hashIfLarge_item]
    split
    · exact rlpSeq_item (by assumption)
    · exact .str _ (by simp)
  cases l with
  | empty => exact .str [] (by simp)
  | hash x => exact hash x
  | branch cs v => rw [enc_rlp (by simp [IsHash])]; exact seq _
  | ext n c => rw [enc_rlp (by simp [IsHash])]; exact seq _
  | leaf n v => rw [enc_rlp (by simp [IsHash])]; exact seq _

theorem raw_short {l : LNode} {b : Bytes} (h : l.enc kec = .raw b) : b.length < 32 := by
  by_cases hh : l.IsHash
  · cases l <;> simp [IsHash] at hh
    simp [enc] at h
  · rw [enc_rlp hh, hashIfLarge] at h
    split at h
    · rename_i hd
      simp at hd
      cases h; exact hd
    · cases h

/-- An item determines the encoding. -/
theorem item_inj {l m : LNode} (h : (l.enc kec).item = (m.enc kec).item) : l.enc kec = m.enc kec := by
  rcases hl : l.enc kec with a | a <;> rcases hm : m.enc kec with b | b
  · rw [hl, hm] at h; simpa [EncodedNode.item] using h
  · have := raw_short hl
    rw [hl, hm] at h
    simp only [EncodedNode.item, rlpValue_eq] at h
    have h2 := rlpStr_32 b
    rw [← h] at h2; omega
  · have := raw_short hm
    rw [hl, hm] at h
    simp only [EncodedNode.item, rlpValue_eq] at h
    have h2 := rlpStr_32 a
    rw [h] at h2; omega
  · rw [hl, hm] at h
    simp only [EncodedNode.item, rlpValue_eq] at h
    have := rlpStr_inj h
    rw [Vector.toList_inj.1 this]

/-- The same trie, except for parts elided in one of them. -/
inductive Agree (kec : Bytes → H256) : LNode → LNode → Prop
  | left (m : LNode) (h : H256) (he : m.enc kec = .hashed h) : Agree kec (.hash h) m
  | right (l : LNode) (h : H256) (he : l.enc kec = .hashed h) : Agree kec l (.hash h)
  | empty : Agree kec .empty .empty
  | branch (ps cs : Fin 16 → LNode) (v : Bytes) (h : ∀ i, Agree kec (ps i) (cs i)) :
      Agree kec (.branch ps v) (.branch cs v)
  | ext (n : Key) (p c : LNode) (h : Agree kec p c) : Agree kec (.ext n p) (.ext n c)
  | leaf (n : Key) (v : Bytes) : Agree kec (.leaf n v) (.leaf n v)

/-- Nodes at the same position collide. -/
def Collide (kec : Bytes → H256) (l m : LNode) : Prop :=
  ∃ q x y, At l q x ∧ At m q y ∧ ¬ x.IsHash ∧ ¬ y.IsHash ∧ x.rlp kec ≠ y.rlp kec ∧
    kec (x.rlp kec) = kec (y.rlp kec)

theorem rlpSeq_head (xs : List Bytes) : rlpSeq xs ≠ rlpStr [] := by
  intro h
  have h2 : rlpStr [] = [0x80] := rfl
  rw [h2] at h
  unfold rlpSeq at h
  split at h
  · rename_i h1
    have h3 := (List.cons.inj h).2
    rw [h3] at h
    simp at h
  · rename_i h1
    have h3 := congrArg List.length h
    simp only [List.length_cons, List.length_append, List.length_nil] at h3
    omega

theorem HP_length (n : Key) (t : Bool) (h : n.length ≤ 128) : (HP n t).length < 2 ^ 64 := by
  have hp : ∀ l : Key, (pairs l).length ≤ l.length := by
    intro l
    induction l using pairs.induct with
    | case1 x y r ih => simp [pairs]; omega
    | case2 l h =>
      rw [pairs]
      · simp
      · exact h
  unfold HP
  dsimp only
  split
  · have := hp n; rw [List.length_cons]; omega
  · cases n with
    | nil => simp
    | cons a r => have := hp r; simp only [List.length_cons] at h ⊢; omega

theorem hashIfLarge_inj {a b : Bytes} (h : hashIfLarge kec a = hashIfLarge kec b) :
    a = b ∨ kec a = kec b := by
  unfold hashIfLarge at h
  split at h <;> split at h
  · left; simpa using h
  · cases h
  · cases h
  · right; simpa using h

theorem items_branch (cs : Fin 16 → LNode) {v : Bytes} (hv : v.length < 2 ^ 64) :
    ∀ x ∈ (List.finRange 16).map (fun i => (enc kec (cs i)).item) ++ [rlpStr v], RlpItem x := by
  intro x hx
  rcases List.mem_append.1 hx with h | h
  · obtain ⟨i, _, rfl⟩ := List.mem_map.1 h
    exact item_item _
  · rw [List.mem_singleton.1 h]
    exact .str _ hv

theorem items_ext (n : Key) (hn : n.length ≤ 128) (c : LNode) :
    ∀ x ∈ [rlpStr (HP n false), (enc kec c).item], RlpItem x := by
  intro x hx
  simp only [List.mem_cons, List.not_mem_nil, or_false] at hx
  rcases hx with rfl | rfl
  · exact .str _ (HP_length _ _ hn)
  · exact item_item _

theorem items_leaf (n : Key) (hn : n.length ≤ 128) {v : Bytes} (hv : v.length < 2 ^ 64) :
    ∀ x ∈ [rlpStr (HP n true), rlpStr v], RlpItem x := by
  intro x hx
  simp only [List.mem_cons, List.not_mem_nil, or_false] at hx
  rcases hx with rfl | rfl
  · exact .str _ (HP_length _ _ hn)
  · exact .str _ hv

/-- Nodes with the same encoding are the same, up to elided parts, or there is a collision. -/
theorem enc_agree (l : LNode) : ∀ m : LNode, l.Small → m.Small → 
    (l.enc kec = m.enc kec → Agree kec l m ∨ Collide kec l m) ∧
    (¬ l.IsHash → ¬ m.IsHash → l.rlp kec = m.rlp kec → Agree kec l m ∨ Collide kec l m) := by
  have step : ∀ l m : LNode,
      (¬ l.IsHash → ¬ m.IsHash → l.rlp kec = m.rlp kec → Agree kec l m ∨ Collide kec l m) →
      (l.enc kec = m.enc kec → Agree kec l m ∨ Collide kec l m) := by
    intro l m hrec he
    by_cases hl : l.IsHash
    · cases l <;> simp [IsHash] at hl
      exact .inl (.left _ _ he.symm)
    by_cases hm : m.IsHash
    · cases m <;> simp [IsHash] at hm
      exact .inl (.right _ _ he)
    by_cases hr : l.rlp kec = m.rlp kec
    · exact hrec hl hm hr
    · rw [enc_rlp hl, enc_rlp hm] at he
      rcases hashIfLarge_inj he with h | h
      · exact absurd h hr
      · exact .inr ⟨[], l, m, .here _, .here _, hl, hm, hr, h⟩
  induction l with
  | empty =>
    refine fun m hl hm => ⟨step _ _ ?_, ?_⟩ <;>
    · intro _ _ hr
      cases m with
      | empty => exact .inl .empty
      | hash x => exact absurd trivial ‹¬ _›
      | branch cs v => exact absurd hr.symm (rlpSeq_head _)
      | ext n c => exact absurd hr.symm (rlpSeq_head _)
      | leaf n v => exact absurd hr.symm (rlpSeq_head _)
  | hash x =>
    refine fun m hl hm => ⟨step _ _ ?_, ?_⟩ <;> exact fun h => absurd trivial h
  | branch cs v ih =>
    intro m hl hm
    suffices h : ¬ m.IsHash → (branch cs v).rlp kec = m.rlp kec →
        Agree kec (branch cs v) m ∨ Collide kec (branch cs v) m from
      ⟨step _ _ fun _ => h, fun _ => h⟩
    intro hh hr
    cases m with
    | empty => exact absurd hr (rlpSeq_head _)
    | hash x => exact absurd trivial hh
    | branch ds w =>
      have h1 := items_inj (items_branch cs hl.1) (items_branch ds hm.1) (rlpSeq_inj hr)
      obtain ⟨h2, h3⟩ := List.append_inj h1 (by simp)
      have h3 := rlpStr_inj (List.singleton_inj.1 h3)
      subst h3
      have h4 : ∀ i, (enc kec (cs i)).item = (enc kec (ds i)).item := fun i =>
        List.map_inj_left.1 h2 i (List.mem_finRange i)
      by_cases hc : ∃ i, Collide kec (cs i) (ds i)
      · obtain ⟨i, q, x, y, g1, g2, g3⟩ := hc
        exact .inr ⟨i :: q, x, y, .branch _ _ _ _ _ g1, .branch _ _ _ _ _ g2, g3⟩
      · refine .inl (.branch _ _ _ fun i => ?_)
        exact ((ih i (ds i) (hl.2 i) (hm.2 i)).1 (item_inj (h4 i))).resolve_right fun g => hc ⟨i, g⟩
    | ext n c =>
      have h1 := items_inj (items_branch cs hl.1) (items_ext n hm.1 c) (rlpSeq_inj hr)
      have := congrArg List.length h1
      simp at this
    | leaf n w =>
      have h1 := items_inj (items_branch cs hl.1) (items_leaf n hm.1 hm.2) (rlpSeq_inj hr)
      have := congrArg List.length h1
      simp at this
  | ext n c ih =>
    intro m hl hm
    suffices h : ¬ m.IsHash → (ext n c).rlp kec = m.rlp kec →
        Agree kec (ext n c) m ∨ Collide kec (ext n c) m from
      ⟨step _ _ fun _ => h, fun _ => h⟩
    intro hh hr
    cases m with
    | empty => exact absurd hr (rlpSeq_head _)
    | hash x => exact absurd trivial hh
    | branch ds w =>
      have h1 := items_inj (items_ext n hl.1 c) (items_branch ds hm.1) (rlpSeq_inj hr)
      have := congrArg List.length h1
      simp at this
    | ext k d =>
      have h1 := items_inj (items_ext n hl.1 c) (items_ext k hm.1 d) (rlpSeq_inj hr)
      simp only [List.cons.injEq, and_true] at h1
      obtain ⟨rfl, _⟩ := Nibbles.HP_inj (rlpStr_inj h1.1)
      rcases (ih d hl.2 hm.2).1 (item_inj h1.2) with g | ⟨q, x, y, g1, g2, g3⟩
      · exact .inl (.ext _ _ _ g)
      · exact .inr ⟨n ++ q, x, y, .ext _ _ _ _ g1, .ext _ _ _ _ g2, g3⟩
    | leaf k w =>
      have h1 := items_inj (items_ext n hl.1 c) (items_leaf k hm.1 hm.2) (rlpSeq_inj hr)
      simp only [List.cons.injEq, and_true] at h1
      have := (Nibbles.HP_inj (rlpStr_inj h1.1)).2
      cases this
  | leaf n v =>
    intro m hl hm
    suffices h : ¬ m.IsHash → (leaf n v).rlp kec = m.rlp kec →
        Agree kec (leaf n v) m ∨ Collide kec (leaf n v) m from
      ⟨step _ _ fun _ => h, fun _ => h⟩
    intro hh hr
    cases m with
    | empty => exact absurd hr (rlpSeq_head _)
    | hash x => exact absurd trivial hh
    | branch ds w =>
      have h1 := items_inj (items_leaf n hl.1 hl.2) (items_branch ds hm.1) (rlpSeq_inj hr)
      have := congrArg List.length h1
      simp at this
    | ext k d =>
      have h1 := items_inj (items_leaf n hl.1 hl.2) (items_ext k hm.1 d) (rlpSeq_inj hr)
      simp only [List.cons.injEq, and_true] at h1
      have := (Nibbles.HP_inj (rlpStr_inj h1.1)).2
      cases this
    | leaf k w =>
      have h1 := items_inj (items_leaf n hl.1 hl.2) (items_leaf k hm.1 hm.2) (rlpSeq_inj hr)
      simp only [List.cons.injEq, and_true] at h1
      obtain ⟨rfl, _⟩ := Nibbles.HP_inj (rlpStr_inj h1.1)
      obtain rfl := rlpStr_inj h1.2
      exact .inl (.leaf _ _)

theorem rootHash_rlp {l : LNode} (h : ¬ l.IsHash) : l.rootHash kec = kec (l.rlp kec) := by
  rw [rootHash, enc_rlp h, hashIfLarge_toH256]

/-- Tries with the same root hash are the same, up to elided parts, or there is a collision. -/
theorem rootHash_agree {l m : LNode} (hl : l.Small) (hm : m.Small) (h1 : ¬ l.IsHash)
    (h2 : ¬ m.IsHash) (h : l.rootHash kec = m.rootHash kec) : Agree kec l m ∨ Collide kec l m := by
  rw [rootHash_rlp h1, rootHash_rlp h2] at h
  by_cases hr : l.rlp kec = m.rlp kec
  · exact (enc_agree l m hl hm).2 h1 h2 hr
  · exact .inr ⟨[], l, m, .here _, .here _, h1, h2, hr, h⟩

/-- Agreement with a trie without hash nodes. -/
theorem Agree.view {l m : LNode} (h : Agree kec l m) (hm : ∀ q u, At m q u → ¬ u.IsHash) :
    View kec l m := by
  induction h with
  | left m h he => exact .away _ _ he
  | right l h he => exact absurd trivial (hm _ _ (.here _))
  | empty => exact .empty
  | branch ps cs v h ih => exact .branch _ _ _ fun i => ih i fun q u hu => hm _ _ (.branch _ _ _ _ _ hu)
  | ext n p c h ih => exact .ext _ _ _ (ih fun q u hu => hm _ _ (.ext _ _ _ _ hu))
  | leaf n v => exact .leaf _ _

theorem View.eq {l m : LNode} (h : View kec l m) (hl : ∀ q u, At l q u → ¬ u.IsHash) : l = m := by
  induction h with
  | away m h he => exact absurd trivial (hl _ _ (.here _))
  | empty => rfl
  | branch ps cs v h ih =>
    have : ps = cs := funext fun i => ih i fun q u hu => hl _ _ (.branch _ _ _ _ _ hu)
    rw [this]
  | ext n p c h ih => rw [ih fun q u hu => hl _ _ (.ext _ _ _ _ hu)]
  | leaf n v => rfl

/-! ### Lookups in partial views -/

theorem View.get_some {p t : LNode} (h : View kec p t) {P : Profile} {v : Bytes} : ∀ {k : Key},
    p.get P k = .ok (some v) → t.get P k = .ok (some v) := by
  induction h with
  | away m h he => intro k hk; simp [LNode.get] at hk
  | empty => exact id
  | branch ps cs w h ih =>
    intro k hk
    cases k with
    | nil => exact hk
    | cons d k => exact ih d hk
  | ext n p c h ih =>
    intro k
    simp only [LNode.get]
    split
    · split
      · exact fun h => ih h
      · exact id
    · split
      · exact id
      · split
        · exact fun h => ih h
        · exact id
  | leaf n w => exact id

theorem View.get_eq {p t : LNode} (h : View kec p t) {P : Profile} : ∀ {k : Key},
    (∀ q u, At p q u → u.IsHash → ¬ q <+: k) →
    (P.overflowChecks = true ∨ ∀ q u, At p q u → q.length ≤ k.length) →
    p.get P k = t.get P k := by
  induction h with
  | away m h he => intro k hk; exact absurd List.nil_prefix (hk [] _ (.here _) trivial)
  | empty => intros; rfl
  | branch ps cs w h ih =>
    intro k hk hP
    cases k with
    | nil => rfl
    | cons d k =>
      refine ih d (fun q u hu hh hq => ?_) ?_
      · exact hk _ _ (.branch _ _ _ _ _ hu) hh (List.cons_prefix_cons.2 ⟨rfl, hq⟩)
      · exact hP.imp id fun hP q u hu => by
          have := hP _ _ (.branch _ _ _ _ _ hu)
          simp only [List.length_cons] at this
          omega
  | ext n p c h ih =>
    intro k hk hP
    simp only [LNode.get]
    split
    · split
      · rename_i _ hn
        obtain ⟨r, rfl⟩ := hn
        simp only [List.drop_left]
        refine ih (fun q u hu hh hq => ?_) ?_
        · exact hk _ _ (.ext _ _ _ _ hu) hh ((List.prefix_append_right_inj n).2 hq)
        · exact hP.imp id fun hP q u hu => by
            have := hP _ _ (.ext _ _ _ _ hu)
            simp only [List.length_append] at this
            omega
      · rfl
    · rename_i hl
      split
      · rfl
      · rename_i hc
        rcases hP with hP | hP
        · exact absurd hP hc
        · have := hP _ _ (.ext n p [] p (.here _))
          simp only [List.append_nil] at this
          exact absurd this hl
  | leaf n w => intros; rfl

end LNode
end EthTrie
