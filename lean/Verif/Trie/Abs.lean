import Verif.Trie.LNode
import Verif.Spec.Map
import Verif.Nibbles.Lemmas2

/-!
# Contents of list-keyed tries; canonical tries; correctness of insert, get, delete
-/

namespace EthTrie

open Spec KMap

namespace LNode

/-- Contents. -/
def absL : LNode → KMap
  | .empty, _ => none
  | .hash h, k => if k = [] then some (.hash h) else none
  | .branch cs v, k => match k with
    | [] => if v = [] then none else some (.val v)
    | d :: k' => absL (cs d) k'
  | .ext n c, k => if n <+: k then absL c (k.drop n.length) else none
  | .leaf n v, k => if k = n then some (.val v) else none

/-- Branch or hash node. -/
def isBH : LNode → Prop
  | .hash _ => True
  | .branch _ _ => True
  | _ => False

/-- Canonical tries. -/
def Canon : LNode → Prop
  | .empty => True
  | .hash _ => True
  | .leaf _ _ => True
  | .ext n c => n ≠ [] ∧ c.isBH ∧ Canon c
  | .branch cs v => (∀ i, Canon (cs i)) ∧
    ((∃ i j, i ≠ j ∧ cs i ≠ .empty ∧ cs j ≠ .empty) ∨ (v ≠ [] ∧ ∃ i, cs i ≠ .empty))

@[simp] theorem absL_empty (q : Key) : absL .empty q = none := rfl
@[simp] theorem absL_branch_cons (cs : Fin 16 → LNode) (v : Bytes) (d : Fin 16) (q : Key) :
    absL (.branch cs v) (d :: q) = absL (cs d) q := rfl
@[simp] theorem absL_branch_nil (cs : Fin 16 → LNode) (v : Bytes) :
    absL (.branch cs v) [] = if v = [] then none else some (.val v) := rfl
theorem absL_leaf (n : Key) (v : Bytes) (q : Key) :
    absL (.leaf n v) q = if q = n then some (.val v) else none := rfl
theorem absL_hash (h : H256) (q : Key) :
    absL (.hash h) q = if q = [] then some (.hash h) else none := rfl
@[simp] theorem absL_ext_append (n : Key) (c : LNode) (q : Key) :
    absL (.ext n c) (n ++ q) = absL c q := by
  simp [absL]
theorem absL_ext_none {n : Key} {c : LNode} {q : Key} (h : ¬ n <+: q) :
    absL (.ext n c) q = none := by
  simp [absL, h]
theorem absL_ext_some {n : Key} {c : LNode} {q : Key} (h : absL (.ext n c) q ≠ none) :
    ∃ r, q = n ++ r ∧ absL c r ≠ none := by
  by_cases hp : n <+: q
  · obtain ⟨r, rfl⟩ := hp
    exact ⟨r, rfl, by simpa using h⟩
  · exact absurd (absL_ext_none hp) h

@[simp] theorem absL_ext_nil (c : LNode) : absL (.ext [] c) = absL c := by
  funext q; simp [absL]

@[simp] theorem absL_mkExt (n : Key) (c : LNode) : absL (mkExt n c) = absL (.ext n c) := by
  cases n with
  | nil => simp [mkExt]
  | cons => rfl

theorem absL_ext_ext (a b : Key) (c : LNode) :
    absL (.ext (a ++ b) c) = absL (.ext a (.ext b c)) := by
  funext q
  by_cases ha : a <+: q
  · obtain ⟨r, rfl⟩ := ha
    rw [absL_ext_append]
    by_cases hb : b <+: r
    · obtain ⟨s, rfl⟩ := hb
      rw [absL_ext_append, ← List.append_assoc, absL_ext_append]
    · rw [absL_ext_none hb, absL_ext_none (by rwa [List.prefix_append_right_inj])]
  · rw [absL_ext_none ha, absL_ext_none]
    exact fun h => ha ((List.prefix_append a b).trans h)

@[simp] theorem absL_ext_leaf (a b : Key) (v : Bytes) :
    absL (.ext a (.leaf b v)) = absL (.leaf (a ++ b) v) := by
  funext q
  by_cases ha : a <+: q
  · obtain ⟨r, rfl⟩ := ha
    rw [absL_ext_append, absL_leaf, absL_leaf]
    simp
  · rw [absL_ext_none ha, absL_leaf, if_neg]
    rintro rfl
    exact ha (List.prefix_append a b)

@[simp] theorem absL_mkNode (k : Key) (v : ValOrHash) :
    absL (mkNode k v) = KMap.empty.put k v := by
  funext q
  cases v with
  | val x => simp only [mkNode, absL_leaf, put, KMap.empty]
  | hash h =>
    have : absL (mkNode k (.hash h)) = absL (.ext k (.hash h)) := by
      cases k with
      | nil => simp [mkNode]
      | cons => rfl
    rw [this]
    simp only [put, KMap.empty]
    by_cases hk : k <+: q
    · obtain ⟨r, rfl⟩ := hk
      rw [absL_ext_append, absL_hash]
      simp
    · rw [absL_ext_none hk, if_neg]
      rintro rfl; exact hk (List.prefix_refl _)

/-- Storing below a common prefix. -/
theorem absL_ext_put {n : Key} {c c' : LNode} {k : Key} {v : ValOrHash}
    (h : absL c' = (absL c).put k v) :
    absL (.ext n c') = (absL (.ext n c)).put (n ++ k) v := by
  funext q
  by_cases hn : n <+: q
  · obtain ⟨r, rfl⟩ := hn
    simp only [absL_ext_append, put, h, List.append_cancel_left_eq]
  · simp only [put]
    rw [absL_ext_none hn, absL_ext_none hn, if_neg]
    rintro rfl; exact hn (List.prefix_append _ _)

theorem absL_branch_put {cs : Fin 16 → LNode} {c : LNode} {d : Fin 16} {w : Bytes} {k : Key}
    {v : ValOrHash} (h : absL c = (absL (cs d)).put k v) :
    absL (.branch (upd cs d c) w) = (absL (.branch cs w)).put (d :: k) v := by
  funext q
  cases q with
  | nil => simp [put]
  | cons e q =>
    simp only [absL_branch_cons, put, List.cons.injEq]
    by_cases he : e = d
    · subst he; simp [h, put]
    · rw [upd_other _ _ he]; simp [he]

theorem absL_ext_erase {n : Key} {c c' : LNode} {k : Key}
    (h : absL c' = (absL c).erase k) :
    absL (.ext n c') = (absL (.ext n c)).erase (n ++ k) := by
  funext q
  by_cases hn : n <+: q
  · obtain ⟨r, rfl⟩ := hn
    simp only [absL_ext_append, erase, h, List.append_cancel_left_eq]
  · simp only [erase]
    rw [absL_ext_none hn, absL_ext_none hn, if_neg]
    rintro rfl; exact hn (List.prefix_append _ _)

theorem absL_branch_erase {cs : Fin 16 → LNode} {c : LNode} {d : Fin 16} {w : Bytes} {k : Key}
    (h : absL c = (absL (cs d)).erase k) :
    absL (.branch (upd cs d c) w) = (absL (.branch cs w)).erase (d :: k) := by
  funext q
  cases q with
  | nil => simp [erase]
  | cons e q =>
    simp only [absL_branch_cons, erase, List.cons.injEq]
    by_cases he : e = d
    · subst he; simp [h, erase]
    · rw [upd_other _ _ he]; simp [he]

/-! ### Sub-maps -/

theorem absL_branch_sub (cs : Fin 16 → LNode) (v : Bytes) (d : Fin 16) :
    sub (absL (.branch cs v)) [d] = absL (cs d) := rfl
theorem absL_ext_sub (n : Key) (c : LNode) : sub (absL (.ext n c)) n = absL c := by
  funext q; simp [sub]

end LNode

namespace KMap

variable {m : KMap} {n k : Key}

theorem below_sub : Below (m.sub n) k ↔ Below m (n ++ k) := by
  simp [Below, sub]
theorem forks_sub : Forks (m.sub n) k ↔ Forks m (n ++ k) := by
  simp [Forks, sub]
theorem loneVal_sub : LoneVal (m.sub n) k ↔ LoneVal m (n ++ k) := by
  simp [LoneVal, sub]
theorem NoHashOn.sub (h : NoHashOn m (n ++ k)) : NoHashOn (m.sub n) k := by
  intro q x hq hp
  exact h _ x hq ((List.prefix_append_right_inj n).mpr hp)

theorem InsertOK.sub {v : ValOrHash} (h : InsertOK m (n ++ k) v) : InsertOK (m.sub n) k v where
  noHash := h.noHash.sub
  noEmpty := fun q hq hp =>
    List.append_cancel_left (h.noEmpty _ hq ((List.prefix_append_right_inj n).mpr hp))
  nonempty := fun hb => h.nonempty (below_sub.mp hb)
  val := fun x hx => by
    rw [below_sub, forks_sub, loneVal_sub]
    exact h.val x hx
  hash := fun x hx => by
    rw [below_sub]
    exact h.hash x hx

theorem PathOK.sub (h : PathOK m (n ++ k)) : PathOK (m.sub n) k :=
  fun hk q p hqk hqp hl hb hall => by
    rw [loneVal_sub]
    refine h hk (n ++ q) (n ++ p) ((List.prefix_append_right_inj n).mpr hqk)
      ((List.prefix_append_right_inj n).mpr hqp) (by simpa using hl) (below_sub.mp hb) ?_
    intro r hr hqr
    obtain ⟨s, rfl⟩ := hqr
    rw [List.append_assoc] at hr ⊢
    exact (List.prefix_append_right_inj n).mpr (hall (q ++ s) hr (List.prefix_append _ _))

theorem GetOK.sub {P : Profile} (h : GetOK P m (n ++ k)) : GetOK P (m.sub n) k where
  leaf := fun hk q x hq hp => below_sub.mpr
    (h.leaf hk _ x hq ((List.prefix_append_right_inj n).mpr hp))
  inside := fun hk => by rw [loneVal_sub]; exact h.inside hk
  short := fun hP => (h.short hP).sub
  zeros := fun hP hk q j x hq hl hx => by
    have := h.zeros hP hk (n ++ q) j x ((List.prefix_append_right_inj n).mpr hq)
      (by simp only [List.length_append]; omega) (by rw [List.append_assoc]; exact hx)
    rw [List.append_assoc] at this
    rw [below_sub]; exact this

theorem DeleteOK.sub (h : DeleteOK m (n ++ k)) : DeleteOK (m.sub n) k where
  noHash := h.noHash.sub
  absent := fun hk => by rw [below_sub, loneVal_sub]; exact h.absent hk
  branch := fun hk => by rw [below_sub, forks_sub]; exact h.branch hk
  parent := fun hk q d r he hq hs => by
    obtain ⟨e, f, s, t, h1, h2, h3, h4, h5⟩ := h.parent hk (n ++ q) d r (by rw [he]; simp) hq
      (fun s hs' => hs s (by rw [List.append_assoc] at hs'; exact hs'))
    exact ⟨e, f, s, t, h1, h2, h3, by rw [List.append_assoc] at h4; exact h4,
      by rw [List.append_assoc] at h5; exact h5⟩

end KMap

namespace LNode

/-! ### Canonical tries store something -/

theorem Canon.exists_key : ∀ {l : LNode}, l.Canon → l ≠ .empty → ∃ q, absL l q ≠ none := by
  intro l
  induction l with
  | empty => intro _ h; exact absurd rfl h
  | hash h => intro _ _; exact ⟨[], by simp [absL_hash]⟩
  | leaf n v => intro _ _; exact ⟨n, by simp [absL_leaf]⟩
  | ext n c ih =>
    intro hc _
    obtain ⟨h1, h2, h3⟩ := hc
    obtain ⟨q, hq⟩ := ih h3 (by rintro rfl; exact h2)
    exact ⟨n ++ q, by simpa using hq⟩
  | branch cs v ih =>
    intro hc _
    obtain ⟨h1, h2⟩ := hc
    have : ∃ i, cs i ≠ .empty := by
      rcases h2 with ⟨i, _, _, hi, _⟩ | ⟨_, i, hi⟩ <;> exact ⟨i, hi⟩
    obtain ⟨i, hi⟩ := this
    obtain ⟨q, hq⟩ := ih i (h1 i) hi
    exact ⟨i :: q, hq⟩

/-- A canonical trie with no key longer than `b` has no path longer than `b`. -/
theorem Canon.bound : ∀ {l : LNode} {b : Nat}, l.Canon →
    (∀ q, absL l q ≠ none → q.length ≤ b) → l.Bound b := by
  intro l
  induction l with
  | empty => intro b _ _; trivial
  | hash h => intro b _ _; trivial
  | leaf n v => intro b _ h; exact h n (by simp [absL_leaf])
  | ext n c ih =>
    intro b hc h
    obtain ⟨q, hq⟩ := hc.2.2.exists_key (by rintro rfl; exact hc.2.1)
    have h0 := h (n ++ q) (by simpa using hq)
    rw [List.length_append] at h0
    refine ⟨by omega, ih hc.2.2 fun r hr => ?_⟩
    have h1 := h (n ++ r) (by simpa using hr)
    rw [List.length_append] at h1
    omega
  | branch cs v ih =>
    intro b hc h
    have h1 : ∀ i q, absL (cs i) q ≠ none → q.length + 1 ≤ b := fun i q hq => by
      have := h (i :: q) hq
      simpa using this
    have : ∃ i, cs i ≠ .empty := by
      rcases hc.2 with ⟨i, _, _, hi, _⟩ | ⟨_, i, hi⟩ <;> exact ⟨i, hi⟩
    obtain ⟨i, hi⟩ := this
    obtain ⟨q, hq⟩ := (hc.1 i).exists_key hi
    have := h1 i q hq
    exact ⟨by omega, fun i => ih i (hc.1 i) fun q hq => by have := h1 i q hq; omega⟩

theorem Canon.branch_below {cs : Fin 16 → LNode} {v : Bytes} (hc : Canon (.branch cs v)) :
    Below (absL (.branch cs v)) [] := by
  obtain ⟨h1, h2⟩ := hc
  have : ∃ i, cs i ≠ .empty := by
    rcases h2 with ⟨i, _, _, hi, _⟩ | ⟨_, i, hi⟩ <;> exact ⟨i, hi⟩
  obtain ⟨i, hi⟩ := this
  obtain ⟨q, hq⟩ := (h1 i).exists_key hi
  exact ⟨i, q, hq⟩

/-- A canonical branch stores at least two keys. -/
theorem Canon.branch_two {cs : Fin 16 → LNode} {v : Bytes} (hc : Canon (.branch cs v)) (q : Key) :
    ∃ r, r ≠ q ∧ absL (.branch cs v) r ≠ none := by
  obtain ⟨h1, h2⟩ := hc
  rcases h2 with ⟨i, j, hij, hi, hj⟩ | ⟨hv, i, hi⟩
  · obtain ⟨r, hr⟩ := (h1 i).exists_key hi
    obtain ⟨s, hs⟩ := (h1 j).exists_key hj
    by_cases hq : q = i :: r
    · exact ⟨j :: s, by subst hq; simp [hij.symm], hs⟩
    · exact ⟨i :: r, fun h => hq h.symm, hr⟩
  · obtain ⟨r, hr⟩ := (h1 i).exists_key hi
    by_cases hq : q = []
    · exact ⟨i :: r, by subst hq; simp, hr⟩
    · exact ⟨[], fun h => hq h.symm, by simp [hv]⟩

theorem Canon.bh_not_lone {c : LNode} (hc : c.Canon) (hb : c.isBH) (k : Key)
    (h : ∀ r, absL c r ≠ none → k <+: r) : ¬ LoneVal (absL c) k := by
  rintro ⟨q, x, h1, h2⟩
  cases c with
  | hash y =>
    rw [absL_hash] at h1
    split at h1 <;> simp at h1
  | branch cs v =>
    obtain ⟨r, hr1, hr2⟩ := hc.branch_two (k ++ q)
    obtain ⟨s, rfl⟩ := h r hr2
    exact hr1 (by rw [h2 s hr2])
  | empty => exact hb
  | ext => exact hb
  | leaf => exact hb

theorem mkNode_ne_empty (k : Key) (v : ValOrHash) : mkNode k v ≠ .empty := by
  cases v with
  | val x => simp [mkNode]
  | hash h => cases k <;> simp [mkNode]

theorem mkNode_canon (k : Key) (v : ValOrHash) : (mkNode k v).Canon := by
  cases v with
  | val x => trivial
  | hash h => cases k with
    | nil => trivial
    | cons => exact ⟨by simp, trivial, trivial⟩

theorem mkExt_canon {n : Key} {c : LNode} (h : c.Canon) (hb : c.isBH) : (mkExt n c).Canon := by
  cases n with
  | nil => exact h
  | cons => exact ⟨by simp, hb, h⟩

theorem mkExt_ne_empty {n : Key} {c : LNode} (hb : c.isBH) : mkExt n c ≠ .empty := by
  cases n with
  | nil => rintro h; simp [mkExt] at h; subst h; exact hb
  | cons => simp [mkExt]

theorem Canon.upd {cs : Fin 16 → LNode} {c : LNode} {w : Bytes} (d : Fin 16)
    (h : Canon (.branch cs w)) (hc : c.Canon) (hne : c ≠ .empty) :
    Canon (.branch (EthTrie.upd cs d c) w) := by
  obtain ⟨h1, h2⟩ := h
  have key : ∀ i, cs i ≠ .empty → EthTrie.upd cs d c i ≠ .empty := by
    intro i hi
    by_cases hid : i = d
    · subst hid; simpa using hne
    · rwa [upd_other _ _ hid]
  refine ⟨fun i => ?_, ?_⟩
  · by_cases hid : i = d
    · subst hid; simpa using hc
    · rw [upd_other _ _ hid]; exact h1 i
  · rcases h2 with ⟨i, j, hij, hi, hj⟩ | ⟨hv, i, hi⟩
    · exact .inl ⟨i, j, hij, key i hi, key j hj⟩
    · exact .inr ⟨hv, i, key i hi⟩

theorem canon_two {e d : Fin 16} (hed : e ≠ d) {c1 c2 : LNode} (h1 : c1.Canon) (h2 : c2.Canon)
    (n1 : c1 ≠ .empty) (n2 : c2 ≠ .empty) :
    Canon (.branch (EthTrie.upd (EthTrie.upd empties e c1) d c2) []) := by
  refine ⟨fun i => ?_, .inl ⟨e, d, hed, ?_, ?_⟩⟩
  · by_cases hi : i = d
    · subst hi; simpa using h2
    · rw [upd_other _ _ hi]
      by_cases hi' : i = e
      · subst hi'; simpa using h1
      · rw [upd_other _ _ hi']; trivial
  · rw [upd_other _ _ hed]; simpa using n1
  · simpa using n2

theorem canon_one {d : Fin 16} {c : LNode} {w : Bytes} (h : c.Canon) (n : c ≠ .empty)
    (hw : w ≠ []) : Canon (.branch (EthTrie.upd empties d c) w) := by
  refine ⟨fun i => ?_, .inr ⟨hw, d, by simpa using n⟩⟩
  by_cases hi : i = d
  · subst hi; simpa using h
  · rw [upd_other _ _ hi]; trivial

/-- Contents of a branch with one child. -/
theorem absL_branch_one (e : Fin 16) (c : LNode) :
    absL (.branch (EthTrie.upd empties e c) []) = absL (.ext [e] c) := by
  funext q
  cases q with
  | nil => simp [absL]
  | cons d q =>
    by_cases h : d = e
    · subst h
      have := absL_ext_append [d] c q
      simp only [List.singleton_append] at this
      rw [this]; simp
    · rw [absL_branch_cons, upd_other _ _ h, absL_ext_none]
      · rfl
      · simp [Ne.symm h]

theorem absL_branch_val (cs : Fin 16 → LNode) {w : Bytes} (hw : w ≠ []) :
    absL (.branch cs w) = (absL (.branch cs [])).put [] (.val w) := by
  funext q
  cases q with
  | nil => simp [put, hw]
  | cons => simp [put]

theorem absL_branch_set (cs : Fin 16 → LNode) (v : Bytes) {w : Bytes} (hw : w ≠ []) :
    absL (.branch cs w) = (absL (.branch cs v)).put [] (.val w) := by
  funext q
  cases q with
  | nil => simp [put, hw]
  | cons => simp [put]

theorem absL_ext_congr {n : Key} {c c' : LNode} (h : absL c = absL c') :
    absL (.ext n c) = absL (.ext n c') := by
  funext q; simp only [absL, h]

theorem absL_branch_empties (w : Bytes) (hw : w ≠ []) :
    absL (.branch empties w) = absL (.leaf [] w) := by
  funext q
  cases q with
  | nil => simp [absL_leaf, hw]
  | cons => simp [absL_leaf, empties]

theorem put_comm {m : KMap} {a b : Key} {v w : ValOrHash} (h : a ≠ b) :
    (m.put a v).put b w = (m.put b w).put a v := by
  funext q
  simp only [put]
  split <;> split <;> simp_all

theorem leaf_eq_put (n : Key) (w : Bytes) :
    absL (.leaf n w) = KMap.empty.put n (.val w) := by
  funext q; simp [absL_leaf, put, KMap.empty]

theorem below_ext {n : Key} {c : LNode} {k : Key} (hc : c.Canon) (hb : c.isBH) (hk : k <+: n)
    (hne : k ≠ n) : Below (absL (.ext n c)) k := by
  obtain ⟨q, hq⟩ := hc.exists_key (by rintro rfl; exact hb)
  obtain ⟨r, rfl⟩ := hk
  cases r with
  | nil => simp at hne
  | cons d r =>
    refine ⟨d, r ++ q, ?_⟩
    have := absL_ext_append (k ++ d :: r) c q
    simp only [List.append_assoc, List.cons_append] at this
    rw [this]; exact hq

theorem not_forks_ext {n : Key} {c : LNode} {k : Key} (hk : k <+: n) (hne : k ≠ n) :
    ¬ Forks (absL (.ext n c)) k := by
  obtain ⟨r, rfl⟩ := hk
  cases r with
  | nil => simp at hne
  | cons d r =>
    rintro ⟨e, f, s, t, hef, h1, h2⟩
    obtain ⟨q1, hq1, _⟩ := absL_ext_some h1
    obtain ⟨q2, hq2, _⟩ := absL_ext_some h2
    simp at hq1 hq2
    exact hef (hq1.1.trans hq2.1.symm)

theorem ext_not_lone {n : Key} {c : LNode} {k : Key} (hc : c.Canon) (hb : c.isBH) (hk : k <+: n) :
    ¬ LoneVal (absL (.ext n c)) k := by
  rintro ⟨q, x, h1, h2⟩
  obtain ⟨r, hr, hr'⟩ := absL_ext_some (q := k ++ q) (by rw [h1]; simp)
  obtain ⟨s, rfl⟩ := hk
  rw [hr, absL_ext_append] at h1
  refine hc.bh_not_lone hb [] (fun _ _ => List.nil_prefix) ⟨r, x, h1, ?_⟩
  intro t ht
  have := h2 (s ++ t) (by rw [← List.append_assoc, absL_ext_append]; exact ht)
  rw [List.append_assoc] at hr
  have hr := List.append_cancel_left hr
  rw [hr] at this
  exact List.append_cancel_left this

/-- Splitting two keys at their common prefix. -/
theorem cpl_split (a b : Key) : ∃ p a' b', a = p ++ a' ∧ b = p ++ b' ∧ cpl a b = p.length ∧
    (∀ x xs y ys, a' = x :: xs → b' = y :: ys → x ≠ y) := by
  induction a generalizing b with
  | nil => exact ⟨[], [], b, rfl, rfl, by simp [cpl], by simp⟩
  | cons x xs ih =>
    cases b with
    | nil => exact ⟨[], x :: xs, [], rfl, rfl, by simp [cpl], by simp⟩
    | cons y ys =>
      by_cases h : x = y
      · subst h
        obtain ⟨p, a', b', h1, h2, h3, h4⟩ := ih ys
        exact ⟨x :: p, a', b', by simp [h1], by simp [h2], by simp [cpl, h3], h4⟩
      · refine ⟨[], x :: xs, y :: ys, rfl, rfl, by simp [cpl, h], ?_⟩
        rintro _ _ _ _ h1 h2
        simp only [List.cons.injEq] at h1 h2
        rw [← h1.1, ← h2.1]; exact h

/-! ### Insert -/

theorem insert_abs (v : ValOrHash) : ∀ (l : LNode) (k : Key), l.Canon → InsertOK (absL l) k v →
    ∃ l', l.insert k v = .ok l' ∧ l'.Canon ∧ l' ≠ .empty ∧ absL l' = (absL l).put k v ∧
      (∀ cs w, l = .branch cs w → l'.isBH) := by
  intro l
  induction l with
  | empty =>
    intro k hc hk
    refine ⟨_, rfl, mkNode_canon k v, mkNode_ne_empty k v, ?_, by simp⟩
    rw [absL_mkNode]; rfl
  | hash h =>
    intro k hc hk
    exact absurd List.nil_prefix (hk.noHash [] h (by simp [absL_hash]))
  | branch cs w ih =>
    intro k hc hk
    cases k with
    | nil =>
      have hb := hc.branch_below
      cases v with
      | hash h => exact absurd hb (hk.hash h rfl).2
      | val x =>
        have hx : x ≠ [] := fun h => hk.nonempty hb (by rw [h])
        refine ⟨_, rfl, ⟨hc.1, ?_⟩, by simp, absL_branch_set _ _ hx, fun _ _ _ => trivial⟩
        rcases hc.2 with h | ⟨_, h⟩
        · exact .inl h
        · exact .inr ⟨hx, h⟩
    | cons d k =>
      obtain ⟨c, h1, h2, h3, h4, _⟩ := ih d k (hc.1 d) (hk.sub (n := [d]))
      refine ⟨.branch (EthTrie.upd cs d c) w, ?_, hc.upd d h2 h3, by simp, absL_branch_put h4,
        fun _ _ _ => trivial⟩
      simp only [LNode.insert, h1]; rfl
  | ext n c ih =>
    intro k hc hk
    obtain ⟨hn, hb, hcc⟩ := hc
    simp only [LNode.insert]
    by_cases hp : n <+: k
    · rw [if_pos (.inl hp)]
      obtain ⟨k, rfl⟩ := hp
      have hs := hk.sub
      rw [absL_ext_sub] at hs
      obtain ⟨c', h1, h2, h3, h4, h5⟩ := ih k hcc hs
      refine ⟨.ext n c', ?_, ⟨hn, ?_, h2⟩, by simp, absL_ext_put h4, by simp⟩
      · simp [h1]
      · cases c with
        | branch cs w => exact h5 cs w rfl
        | hash h => exact absurd List.nil_prefix (hs.noHash [] h (by simp [absL_hash]))
        | empty => exact hb.elim
        | ext => exact hb.elim
        | leaf => exact hb.elim
    · by_cases hp' : k <+: n
      · exfalso
        have hne : k ≠ n := by rintro rfl; exact hp (List.prefix_refl _)
        have hbl := below_ext hcc hb hp' hne
        cases v with
        | hash h => exact (hk.hash h rfl).2 hbl
        | val x =>
          rcases hk.val x rfl with h | h | h | h
          · exact h (absL_ext_none hp)
          · exact h hbl
          · exact not_forks_ext hp' hne h
          · exact ext_not_lone hcc hb hp' h
      · rw [if_neg (by simp [hp, hp'])]
        obtain ⟨p, a', b', rfl, rfl, hcp, hne⟩ := cpl_split n k
        rw [hcp]
        simp only [List.drop_left, List.take_left]
        cases a' with
        | nil => exact absurd (by simp) hp
        | cons e nr =>
        cases b' with
        | nil => exact absurd (by simp) hp'
        | cons d kr =>
        have hed := hne e nr d kr rfl rfl
        have hb' := canon_two hed (mkExt_canon (n := nr) hcc hb) (mkNode_canon kr v)
          (mkExt_ne_empty hb) (mkNode_ne_empty kr v)
        refine ⟨_, rfl, mkExt_canon hb' trivial, mkExt_ne_empty trivial, ?_, by simp⟩
        rw [absL_mkExt, absL_ext_ext]
        apply absL_ext_put
        rw [absL_branch_put (k := kr) (v := v), absL_branch_one, absL_ext_congr (absL_mkExt nr c),
          ← absL_ext_ext]
        · rfl
        · rw [absL_mkNode, upd_other _ _ hed.symm]; rfl
  | leaf n w =>
    intro k hc hk
    simp only [LNode.insert]
    by_cases hnk : n = k
    · subst hnk
      rw [if_pos rfl]
      cases v with
      | hash h => exact absurd (hk.hash h rfl).1 (by simp [absL_leaf])
      | val x =>
        refine ⟨_, rfl, trivial, by simp, ?_, by simp⟩
        funext q
        simp only [absL_leaf, put]
        split <;> rfl
    · rw [if_neg hnk]
      obtain ⟨p, a', b', rfl, rfl, hcp, hne⟩ := cpl_split n k
      rw [hcp]
      simp only [List.drop_left, List.take_left]
      cases a' with
      | nil =>
        cases b' with
        | nil => exact absurd rfl hnk
        | cons d kr =>
          have hw : w ≠ [] := by
            rintro rfl
            exact hnk (hk.noEmpty (p ++ []) (by simp [absL_leaf]) (by simp))
          refine ⟨_, rfl, mkExt_canon (canon_one (mkNode_canon kr v) (mkNode_ne_empty kr v) hw)
            trivial, mkExt_ne_empty trivial, ?_, by simp⟩
          rw [absL_mkExt, ← absL_ext_leaf]
          apply absL_ext_put
          rw [absL_branch_put (k := kr) (v := v), absL_branch_empties _ hw]
          rw [absL_mkNode]; rfl
      | cons e nr =>
        cases b' with
        | nil =>
          have hbl : Below (absL (.leaf (p ++ e :: nr) w)) (p ++ []) :=
            ⟨e, nr, by simp [absL_leaf]⟩
          cases v with
          | hash h => exact absurd hbl (hk.hash h rfl).2
          | val x =>
          have hx : x ≠ [] := fun h => hk.nonempty hbl (by rw [h])
          refine ⟨_, rfl, mkExt_canon (canon_one (by trivial) (by simp) hx)
            trivial, mkExt_ne_empty trivial, ?_, by simp⟩
          rw [absL_mkExt, ← absL_ext_leaf]
          apply absL_ext_put
          rw [absL_branch_val _ hx, absL_branch_one, absL_ext_leaf]; rfl
        | cons d kr =>
          have hed := hne e nr d kr rfl rfl
          refine ⟨_, rfl, mkExt_canon (canon_two hed (by trivial) (mkNode_canon kr v)
            (by simp) (mkNode_ne_empty kr v)) trivial, mkExt_ne_empty trivial, ?_, by simp⟩
          rw [absL_mkExt, ← absL_ext_leaf]
          apply absL_ext_put
          rw [absL_branch_put (k := kr) (v := v), absL_branch_one, absL_ext_leaf]
          · rfl
          · rw [absL_mkNode, upd_other _ _ hed.symm]; rfl

/-! ### Get -/

theorem get_abs (P : Profile) : ∀ (l : LNode) (k : Key), l.Canon → GetOK P (absL l) k →
    l.get P k = .ok ((absL l).find k) := by
  intro l
  induction l with
  | empty => intro k _ _; rfl
  | hash h =>
    intro k _ _
    simp only [LNode.get, find, absL_hash]
    split <;> simp_all
  | branch cs w ih =>
    intro k hc hk
    cases k with
    | nil =>
      simp only [LNode.get, find, absL_branch_nil]
      by_cases hw : w = [] <;> simp [hw]
    | cons d k =>
      simp only [LNode.get]
      rw [ih d k (hc.1 d) (hk.sub (n := [d]))]
      rfl
  | ext n c ih =>
    intro k hc hk
    obtain ⟨hn, hb, hcc⟩ := hc
    simp only [LNode.get]
    by_cases hl : n.length ≤ k.length
    · rw [if_pos hl]
      by_cases hp : n <+: k
      · rw [if_pos hp]
        obtain ⟨k, rfl⟩ := hp
        have hs := hk.sub
        rw [absL_ext_sub] at hs
        rw [List.drop_left, ih k hcc hs]
        simp [find]
      · rw [if_neg hp]
        simp [find, absL_ext_none hp]
    · have hm : absL (.ext n c) k = none := absL_ext_none fun h => hl h.length_le
      rw [if_neg hl]
      by_cases hP : P.overflowChecks = true
      · exfalso
        refine ext_not_lone hcc hb List.nil_prefix (hk.short hP hm [] n List.nil_prefix
          List.nil_prefix (by omega) (below_ext hcc hb List.nil_prefix hn.symm) ?_)
        intro r hr _
        obtain ⟨s, rfl, _⟩ := absL_ext_some hr
        exact List.prefix_append _ _
      · rw [if_neg hP]
        have hf : find (absL (.ext n c)) k = none := by simp [find, hm]
        rw [hf]
        split
        · rename_i h0
          cases c with
          | hash h => rfl
          | branch cs v =>
            simp only [LNode.get]
            by_cases hv : v = []
            · rw [if_pos hv]
            · exfalso
              have hval : absL (.ext n (.branch cs v)) n = some (.val v) := by
                have := absL_ext_append n (.branch cs v) []
                rw [List.append_nil] at this
                rw [this]; simp [hv]
              refine hk.zeros (by simpa using hP) hm [] n.length v List.nil_prefix (by simp; omega)
                (by rw [List.nil_append, ← h0]; exact hval) ?_
              rw [List.nil_append, ← h0]
              obtain ⟨d, r, hr⟩ := hcc.branch_below
              exact ⟨d, r, by rw [absL_ext_append]; exact hr⟩
          | empty => exact hb.elim
          | ext _ _ => exact hb.elim
          | leaf _ _ => exact hb.elim
        · rfl
  | leaf n w =>
    intro k _ hk
    simp only [LNode.get, find, absL_leaf]
    by_cases hnk : k = n
    · subst hnk; simp
    · have hm : absL (.leaf n w) k = none := by simp [absL_leaf, hnk]
      rw [if_neg, if_neg hnk]
      rintro (h | h)
      · obtain ⟨d, r, h'⟩ := hk.leaf hm n w (by simp [absL_leaf]) h
        simp [absL_leaf] at h'
      · obtain ⟨s, rfl⟩ := h
        cases s with
        | nil => simp at hnk
        | cons d s =>
          exact hk.inside hm ⟨d :: s, w, by simp [absL_leaf], fun r hr => by
            simpa [absL_leaf] using hr⟩

/-! ### Delete -/

/-- What remains after a deletion, before the parent collapses it. -/
def PreCanon (l : LNode) : Prop :=
  l.Canon ∨ ∃ n c, l = .ext n c ∧ n ≠ [] ∧ c.Canon ∧ c ≠ .empty

theorem collapse_canon {n : Key} {c : LNode} (hn : n ≠ []) (hc : c.Canon) (hne : c ≠ .empty) :
    ∃ r, collapse n c = .ok r ∧ r.Canon ∧ absL r = absL (.ext n c) ∧ r ≠ .empty := by
  cases c with
  | empty => exact absurd rfl hne
  | hash h => exact ⟨_, rfl, ⟨hn, trivial, hc⟩, rfl, by simp⟩
  | branch cs v => exact ⟨_, rfl, ⟨hn, trivial, hc⟩, rfl, by simp⟩
  | ext m c => exact ⟨_, rfl, ⟨by simp [hn], hc.2.1, hc.2.2⟩, absL_ext_ext n m c, by simp⟩
  | leaf m v => exact ⟨_, rfl, trivial, (absL_ext_leaf n m v).symm, by simp⟩

theorem tryCollapse_pre {c : LNode} (hc : c.PreCanon) :
    ∃ r, tryCollapse c = .ok r ∧ r.Canon ∧ absL r = absL c ∧ (c ≠ .empty → r ≠ .empty) := by
  rcases hc with hc | ⟨n, X, rfl, hn, hX, hne⟩
  · cases c with
    | empty => exact ⟨_, rfl, trivial, rfl, id⟩
    | hash h => exact ⟨_, rfl, trivial, rfl, id⟩
    | leaf n v => exact ⟨_, rfl, trivial, rfl, id⟩
    | branch cs v => exact ⟨_, rfl, hc, rfl, id⟩
    | ext n c =>
      obtain ⟨r, h1, h2, h3, h4⟩ := collapse_canon hc.1 hc.2.2 (by rintro rfl; exact hc.2.1)
      exact ⟨r, h1, h2, h3, fun _ => h4⟩
  · obtain ⟨r, h1, h2, h3, h4⟩ := collapse_canon hn hX hne
    exact ⟨r, h1, h2, h3, fun _ => h4⟩

theorem collapse_pre {n : Key} {c : LNode} (hn : n ≠ []) (hc : c.PreCanon) (hne : c ≠ .empty) :
    ∃ r, collapse n c = .ok r ∧ r.PreCanon ∧ absL r = absL (.ext n c) ∧ r ≠ .empty := by
  rcases hc with hc | ⟨m, X, rfl, hm, hX, hX'⟩
  · obtain ⟨r, h1, h2, h3, h4⟩ := collapse_canon hn hc hne
    exact ⟨r, h1, .inl h2, h3, h4⟩
  · exact ⟨_, rfl, .inr ⟨_, X, rfl, by simp [hn], hX, hX'⟩, absL_ext_ext n m X, by simp⟩

theorem PreCanon.exists_key {l : LNode} (h : l.PreCanon) (hne : l ≠ .empty) :
    ∃ q, absL l q ≠ none := by
  rcases h with h | ⟨n, c, rfl, hn, hc, hc'⟩
  · exact h.exists_key hne
  · obtain ⟨q, hq⟩ := hc.exists_key hc'
    exact ⟨n ++ q, by simpa using hq⟩

theorem isEmpty_iff {l : LNode} : l.isEmpty = true ↔ l = .empty := by
  cases l <;> simp [isEmpty]

theorem three_of_length {α : Type} {l : List α} (hn : l.Nodup) (h : 3 ≤ l.length) :
    ∃ a b c, a ∈ l ∧ b ∈ l ∧ c ∈ l ∧ a ≠ b ∧ a ≠ c ∧ b ≠ c := by
  match l, h with
  | a :: b :: c :: r, _ =>
    simp only [List.nodup_cons, List.mem_cons, not_or] at hn
    exact ⟨a, b, c, by simp, by simp, by simp, hn.1.1, hn.1.2.1, hn.2.1.1⟩

theorem length_of_three {α : Type} {l : List α} {a b c : α} (ha : a ∈ l)
    (hb : b ∈ l) (hc : c ∈ l) (hab : a ≠ b) (hac : a ≠ c) (hbc : b ≠ c) : 3 ≤ l.length := by
  match l with
  | [] => simp at ha
  | [x] => simp at ha hb; exact absurd (ha.trans hb.symm) hab
  | [x, y] =>
    simp at ha hb hc
    rcases ha with rfl | rfl <;> rcases hb with rfl | rfl <;> rcases hc with rfl | rfl <;>
      simp_all
  | _ :: _ :: _ :: _ => simp

theorem mem_nonEmpty {cs : Fin 16 → LNode} {i : Fin 16} :
    i ∈ (List.finRange 16).filter (fun i => !(cs i).isEmpty) ↔ cs i ≠ .empty := by
  simp [← isEmpty_iff]

theorem numNonEmpty_three {cs : Fin 16 → LNode} (h : ¬ numNonEmpty cs ≤ 2) :
    ∃ a b c, cs a ≠ .empty ∧ cs b ≠ .empty ∧ cs c ≠ .empty ∧ a ≠ b ∧ a ≠ c ∧ b ≠ c := by
  obtain ⟨a, b, c, h1, h2, h3, h4⟩ := three_of_length
    ((List.nodup_finRange 16).filter (fun i => !(cs i).isEmpty)) (by
      simp only [numNonEmpty] at h; omega)
  exact ⟨a, b, c, mem_nonEmpty.mp h1, mem_nonEmpty.mp h2, mem_nonEmpty.mp h3, h4⟩

theorem numNonEmpty_two {cs : Fin 16 → LNode} (h : numNonEmpty cs ≤ 2) {a b c : Fin 16}
    (ha : cs a ≠ .empty) (hb : cs b ≠ .empty) (hab : a ≠ b) (hac : a ≠ c) (hbc : b ≠ c) :
    cs c = .empty := by
  by_contra hc
  have := length_of_three (mem_nonEmpty.mpr ha) (mem_nonEmpty.mpr hb) (mem_nonEmpty.mpr hc) hab hac hbc
  simp only [numNonEmpty] at h; omega

theorem other_some {cs : Fin 16 → LNode} {d i : Fin 16} (hi : i ≠ d) (hne : cs i ≠ .empty) :
    ∃ j, other cs d = some j ∧ j ≠ d ∧ cs j ≠ .empty := by
  have h : (other cs d).isSome := by
    rw [other, List.find?_isSome]
    refine ⟨i, List.mem_finRange i, ?_⟩
    have := fun h => hne (isEmpty_iff.mp h)
    simp only [bne_iff_ne, ne_eq, Bool.and_eq_true, Bool.not_eq_true']
    exact ⟨fun h => hi (Fin.ext h), by simpa using this⟩
  obtain ⟨j, hj⟩ := Option.isSome_iff_exists.mp h
  have := List.find?_some hj
  simp only [bne_iff_ne, ne_eq, Bool.and_eq_true, Bool.not_eq_true'] at this
  refine ⟨j, hj, fun h => this.1 (by rw [h]), fun h => ?_⟩
  rw [h] at this; simp [isEmpty] at this

theorem deleteRec_abs : ∀ (l : LNode) (k : Key), l.Canon → DeleteOK (absL l) k →
    (absL l k = none → l.deleteRec k = .ok none) ∧
    (∀ v, absL l k = some v → ∃ x l', v = .val x ∧ l.deleteRec k = .ok (some (l', x)) ∧
      l'.PreCanon ∧ absL l' = (absL l).erase k ∧
      (∀ cs w, l = .branch cs w → l' ≠ .empty)) := by
  intro l
  induction l with
  | empty => intro k _ _; exact ⟨fun _ => rfl, fun v hv => by simp at hv⟩
  | hash h =>
    intro k hc hk
    exact absurd List.nil_prefix (hk.noHash [] h (by simp [absL_hash]))
  | leaf n w =>
    intro k hc hk
    simp only [LNode.deleteRec, absL_leaf]
    by_cases hnk : k = n
    · subst hnk
      simp only [if_true]
      refine ⟨fun h => by simp at h, fun v hv => ?_⟩
      simp only [Option.some.injEq] at hv
      refine ⟨w, .empty, hv.symm, rfl, .inl trivial, ?_, by simp⟩
      funext q
      simp only [absL_empty, erase, absL_leaf]
      split <;> rfl
    · rw [if_neg hnk, if_neg fun h => hnk h.symm]
      exact ⟨fun _ => rfl, fun v hv => by simp at hv⟩
  | ext n c ih =>
    intro k hc hk
    obtain ⟨hn, hb, hcc⟩ := hc
    simp only [LNode.deleteRec]
    by_cases hp : n <+: k
    · rw [if_pos (.inl hp)]
      obtain ⟨k, rfl⟩ := hp
      have hs := hk.sub
      rw [absL_ext_sub] at hs
      obtain ⟨i1, i2⟩ := ih k hcc hs
      rw [List.drop_left, absL_ext_append]
      refine ⟨fun h => by rw [i1 h]; rfl, fun v hv => ?_⟩
      obtain ⟨x, c', rfl, h1, h2, h3, h4⟩ := i2 v hv
      have hne : c' ≠ .empty := by
        cases c with
        | branch cs w => exact h4 cs w rfl
        | hash h => exact absurd List.nil_prefix (hs.noHash [] h (by simp [absL_hash]))
        | empty => exact hb.elim
        | ext => exact hb.elim
        | leaf => exact hb.elim
      obtain ⟨r, r1, r2, r3, r4⟩ := collapse_pre hn h2 hne
      refine ⟨x, r, rfl, ?_, r2, ?_, by simp⟩
      · rw [h1]; simp only [R_bind_ok, r1]; rfl
      · rw [r3]; exact absL_ext_erase h3
    · have hm : absL (.ext n c) k = none := absL_ext_none hp
      by_cases hp' : k <+: n
      · exfalso
        have hne : k ≠ n := by rintro rfl; exact hp (List.prefix_refl _)
        rcases hk.absent hm with h | h
        · exact h (below_ext hcc hb hp' hne)
        · exact ext_not_lone hcc hb hp' h
      · rw [if_neg (by simp [hp, hp'])]
        exact ⟨fun _ => rfl, fun v hv => by rw [hm] at hv; simp at hv⟩
  | branch cs w ih =>
    intro k hc hk
    cases k with
    | nil =>
      simp only [LNode.deleteRec]
      by_cases hw : w = []
      · exfalso
        have hm : absL (.branch cs w) [] = none := by simp [hw]
        rcases hk.absent hm with h | h
        · exact h hc.branch_below
        · exact hc.bh_not_lone trivial [] (fun _ _ => List.nil_prefix) h
      · have hm : absL (.branch cs w) [] = some (.val w) := by simp [hw]
        refine ⟨fun h => by rw [hm] at h; simp at h, fun v hv => ?_⟩
        rw [hm] at hv
        simp only [Option.some.injEq] at hv
        refine ⟨w, _, hv.symm, rfl, .inl ⟨hc.1, .inl ?_⟩, ?_, fun _ _ _ => by simp⟩
        · rcases hk.branch (by rw [hm]; simp) with h | ⟨d, e, r, s, hde, h1, h2⟩
          · exact absurd hc.branch_below h
          · refine ⟨d, e, hde, ?_, ?_⟩
            · intro h; simp [h] at h1
            · intro h; simp [h] at h2
        · funext q
          cases q <;> simp [erase]
    | cons d k =>
      obtain ⟨i1, i2⟩ := ih d k (hc.1 d) (hk.sub (n := [d]))
      simp only [LNode.deleteRec, absL_branch_cons]
      refine ⟨fun h => by rw [i1 h]; rfl, fun v hv => ?_⟩
      obtain ⟨x, c', rfl, h1, h2, h3, -⟩ := i2 v hv
      have hd : cs d ≠ .empty := by intro h; rw [h] at hv; simp at hv
      by_cases hcond : c'.isEmpty = true ∧ numNonEmpty cs ≤ 2
      · obtain ⟨hce, hnum⟩ := hcond
        have hce' := isEmpty_iff.mp hce
        have honly : ∀ s, absL (cs d) s ≠ none → s = k := by
          intro s hs
          by_contra hsk
          have := congrFun h3 s
          rw [hce'] at this
          simp only [absL_empty, erase, if_neg hsk] at this
          exact hs this.symm
        have hw : w = [] := by
          by_contra hw
          obtain ⟨e, f, s, t, hef, hed, hfd, he, hf⟩ := hk.parent (by simp [hv]) [] d k rfl
            (by simp [hw]) honly
          have he' : cs e ≠ .empty := by intro h; simp [h] at he
          have hf' : cs f ≠ .empty := by intro h; simp [h] at hf
          exact hf' (numNonEmpty_two hnum hd he' hed.symm hfd.symm hef)
        obtain ⟨i, hid, hi⟩ : ∃ i, i ≠ d ∧ cs i ≠ .empty := by
          rcases hc.2 with ⟨i, j, hij, hi, hj⟩ | ⟨h, _⟩
          · by_cases hid : i = d
            · exact ⟨j, fun h => hij (hid.trans h.symm), hj⟩
            · exact ⟨i, hid, hi⟩
          · exact absurd hw h
        obtain ⟨j, hj1, hj2, hj3⟩ := other_some hid hi
        refine ⟨x, .ext [j] (cs j), rfl, ?_, .inr ⟨[j], cs j, rfl, by simp, hc.1 j, hj3⟩, ?_,
          fun _ _ _ => by simp⟩
        · rw [h1]; simp only [R_bind_ok]; rw [if_pos ⟨hce, hnum⟩, hj1]; rfl
        · rw [← absL_branch_one, hw]
          funext q
          cases q with
          | nil => simp [erase]
          | cons e q =>
            simp only [absL_branch_cons, erase, List.cons.injEq]
            by_cases hej : e = j
            · subst hej; simp [hj2]
            · rw [upd_other _ _ hej]
              by_cases hed : e = d
              · subst hed
                by_cases hqk : q = k
                · simp [hqk, empties]
                · simp only [hqk, and_false, if_false, empties, absL_empty]
                  by_contra h
                  exact hqk (honly q fun h' => h h'.symm)
              · have := numNonEmpty_two hnum hd hj3 hj2.symm (fun h => hed h.symm) (fun h => hej h.symm)
                simp [hed, this, empties]
      · obtain ⟨r, r1, r2, r3, r4⟩ := tryCollapse_pre h2
        refine ⟨x, .branch (EthTrie.upd cs d r) w, rfl, ?_, .inl ?_, ?_, fun _ _ _ => by simp⟩
        · rw [h1]; simp only [R_bind_ok]; rw [if_neg hcond, r1]; rfl
        · by_cases hce : c' = .empty
          · have hnum : ¬ numNonEmpty cs ≤ 2 := fun h => hcond ⟨isEmpty_iff.mpr hce, h⟩
            obtain ⟨a, b, c, ha, hb, hc', hab, hac, hbc⟩ := numNonEmpty_three hnum
            refine ⟨fun i => ?_, .inl ?_⟩
            · by_cases hid : i = d
              · subst hid; simpa using r2
              · rw [upd_other _ _ hid]; exact hc.1 i
            · have key : ∀ i, i ≠ d → cs i ≠ .empty → EthTrie.upd cs d r i ≠ .empty := by
                intro i hid hi; rwa [upd_other _ _ hid]
              by_cases had : a = d
              · subst had
                exact ⟨b, c, hbc, key b hab.symm hb, key c hac.symm hc'⟩
              · by_cases hbd : b = d
                · subst hbd
                  exact ⟨a, c, hac, key a had ha, key c hbc.symm hc'⟩
                · exact ⟨a, b, hab, key a had ha, key b hbd hb⟩
          · exact hc.upd d r2 (r4 hce)
        · exact absL_branch_erase (by rw [r3, h3])

theorem erase_absent {m : KMap} {k : Key} (h : m k = none) : m.erase k = m := by
  funext q
  simp only [erase]
  split
  · next hq => rw [hq, h]
  · rfl

theorem delete_abs {l : LNode} {k : Key} (hc : l.Canon) (hk : DeleteOK (absL l) k) :
    ∃ l', l.delete k = .ok (l', (absL l).find k) ∧ l'.Canon ∧ absL l' = (absL l).erase k := by
  obtain ⟨h1, h2⟩ := deleteRec_abs l k hc hk
  cases hm : absL l k with
  | none =>
    refine ⟨l, ?_, hc, (erase_absent hm).symm⟩
    simp only [delete, h1 hm, find, hm]; rfl
  | some v =>
    obtain ⟨x, l', rfl, h3, h4, h5, _⟩ := h2 v hm
    obtain ⟨r, r1, r2, r3, _⟩ := tryCollapse_pre h4
    refine ⟨r, ?_, r2, by rw [r3, h5]⟩
    simp only [delete, h3, find, hm, R_bind_ok, r1]; rfl

end LNode
end EthTrie
