import Verif.Debug.Query
import Verif.Spec.Path
import Verif.Props.Subsets

/-!
# Property C40: the query tool
-/

namespace EthTrie

open Nibbles

variable {α : Type} {P : Profile}

/-! ### Masks -/

theorem isEmptyNode_iff (t : Trie α) : t.isEmptyNode = true ↔ t.IsEmptyNode := by
  cases t <;> simp [Trie.isEmptyNode, Trie.IsEmptyNode]

theorem maskFold (f : Fin 16 → Bool) (is : List (Fin 16)) (m : BitVec 16) (j : Fin 16) :
    ((is.foldl (fun m i => if f i then m ||| (1#16 <<< i.val) else m) m).getLsbD j.val = true) ↔
      m.getLsbD j.val = true ∨ (j ∈ is ∧ f j = true) := by
  induction is generalizing m with
  | nil => simp
  | cons i is ih =>
    have hb : (1#16 <<< i.val).getLsbD j.val = true ↔ j = i :=
      (by decide : ∀ j i : Fin 16, (1#16 <<< i.val).getLsbD j.val = true ↔ j = i) j i
    rw [List.foldl_cons, ih]
    by_cases hf : f i = true
    · rw [if_pos hf, BitVec.getLsbD_or, Bool.or_eq_true, hb, List.mem_cons]
      constructor
      · rintro ((h | h) | h)
        · exact .inl h
        · subst h; exact .inr ⟨.inl rfl, hf⟩
        · exact .inr ⟨.inr h.1, h.2⟩
      · rintro (h | ⟨h | h, h'⟩)
        · exact .inl (.inl h)
        · exact .inl (.inr h)
        · exact .inr ⟨h, h'⟩
    · rw [if_neg hf, List.mem_cons]
      constructor
      · rintro (h | h)
        · exact .inl h
        · exact .inr ⟨.inr h.1, h.2⟩
      · rintro (h | ⟨h | h, h'⟩)
        · exact .inl h
        · subst h; exact absurd h' hf
        · exact .inr ⟨h, h'⟩

theorem childMask_bit (cs : Fin 16 → Trie α) (i : Fin 16) :
    (childMask cs).getLsbD i.val = true ↔ ¬ (cs i).IsEmptyNode := by
  rw [childMask, maskFold (fun i => !(cs i).isEmptyNode)]
  simp [← isEmptyNode_iff]

theorem bit_pos (m : BitVec 16) (i : Fin 16) : m &&& (1#16 <<< i.val) > 0#16 ↔ m.getLsbD i.val = true := by
  have h1 : m &&& (1#16 <<< i.val) > 0#16 ↔ m &&& (1#16 <<< i.val) ≠ 0#16 := by
    rw [gt_iff_lt, BitVec.lt_def, ne_eq, ← BitVec.toNat_inj]
    simp only [BitVec.toNat_ofNat]
    omega
  have hb : ∀ j i : Fin 16, (1#16 <<< i.val).getLsbD j.val = true ↔ j = i := by decide
  rw [h1]
  constructor
  · intro h
    by_contra hn
    apply h
    apply BitVec.eq_of_getLsbD_eq
    intro j hj
    rw [BitVec.getLsbD_and]
    by_cases hji : (⟨j, hj⟩ : Fin 16) = i
    · subst hji
      rw [Bool.eq_false_iff.2 hn]
      simp
    · have := (hb ⟨j, hj⟩ i).not.2 hji
      simp only [Bool.not_eq_true] at this
      rw [this]
      simp
  · intro h h0
    have : (m &&& (1#16 <<< i.val)).getLsbD i.val = true := by
      rw [BitVec.getLsbD_and, h, (hb i i).2 rfl]; rfl
    rw [h0] at this
    simp at this

theorem countFold (f : Fin 16 → Prop) [DecidablePred f] (is : List (Fin 16)) (n : Nat) :
    is.foldl (fun n i => n + if f i then 1 else 0) n = n + (is.filter f).length := by
  induction is generalizing n with
  | nil => simp
  | cons i is ih =>
    rw [List.foldl_cons, ih, List.filter_cons]
    by_cases h : f i <;> simp [h] <;> omega

/-- C40: the mask of a branch tells which children are not empty, and its number of set bits how
many. -/
theorem C40_mask (cs : Fin 16 → Trie α) :
    (∀ i : Fin 16, (childMask cs).getLsbD i.val = true ↔ ¬ (cs i).IsEmptyNode) ∧
    ∀ is : List (Fin 16), is.Nodup → (∀ i, i ∈ is ↔ ¬ (cs i).IsEmptyNode) →
      countMask (childMask cs) = is.length := by
  refine ⟨childMask_bit cs, fun is hn hi => ?_⟩
  rw [countMask, countFold (fun i : Fin 16 => childMask cs &&& (1#16 <<< i.val) > 0#16), Nat.zero_add]
  refine List.Perm.length_eq ((List.perm_ext_iff_of_nodup ((List.nodup_finRange 16).filter _) hn).2 ?_)
  intro i
  rw [List.mem_filter, hi, ← childMask_bit, decide_eq_true_iff, bit_pos]
  simp

theorem extraInfo_describes (t : Trie α) : ExtraInfo.Describes (extraInfo t) t := by
  cases t <;> simp only [extraInfo, ExtraInfo.Describes]
  exact childMask_bit _

/-! ### What the recursion computes -/

theorem getNextNibbles_ok {l : Key} {n : Nat} (hl : l.length ≤ 127) (hn : n ≤ l.length) :
    (ofList l).getNextNibbles P n = .ok (ofList (l.take n)) := by
  rw [getNextNibbles, getNibbleRange_ok P (by omega) (Nat.zero_le _) hn (by omega), List.drop_zero]

/-- A branch cannot be passed with the empty key. -/
theorem popNextFront_nil : ∃ e, (ofList []).popNextFront P = .error e := by
  rcases P with ⟨_ | _⟩
  · exact ⟨.indexOutOfBounds, by decide +kernel⟩
  · exact ⟨.overflow, by decide +kernel⟩

/-- Where the key ends up. -/
def restAt : Trie α → Key → Key
  | .leaf _ n _, r => if n.toList = r.take n.toList.length then r.drop n.toList.length else r
  | _, r => r

theorem restAt_nil (u : Trie α) (r : Key) : restAt u r = [] ↔
    r = [] ∨ ∃ a n v, u = .leaf a n v ∧ n.toList = r := by
  have aux : (r = [] ∨ ∃ a n v, u = .leaf a n v ∧ n.toList = r) → restAt u r = [] := by
    rintro (rfl | ⟨a, n, v, rfl, rfl⟩)
    · cases u <;> simp [restAt]
    · simp [restAt]
  refine ⟨fun h => ?_, aux⟩
  cases u with
  | leaf a n v =>
    simp only [restAt] at h
    split at h
    · rename_i h1
      refine .inr ⟨a, n, v, rfl, ?_⟩
      rw [h1]
      exact List.take_of_length_le (by simpa using h)
    · exact .inl h
  | empty | hash | branch | ext => exact .inl h

theorem key_length {k : Key} {t : Trie α} {xs : List (Trie α × PathSegment)} {u : Trie α} {r : Key}
    (h : t.Tour k xs u r) : r.length ≤ k.length := by
  induction h with
  | empty | hash | leaf => exact Nat.le_refl _
  | branch a cs v d k xs u r h ih => exact Nat.le_succ_of_le ih
  | ext a n c k xs u r h ih => exact ih

theorem queryRec_tour {t : Trie α} {k : Key} {xs : List (Trie α × PathSegment)} {u : Trie α} {r : Key}
    (h : t.Tour k xs u r) (hw : t.WFKeys) (hk : k.length ≤ 127) : ∀ out : QueryOut,
    queryRec P t (ofList k) out = .ok (ofList (restAt u r),
      ⟨out.path ++ xs.map (·.2), out.extra ++ xs.map (fun x => extraInfo x.1),
        out.found || decide (restAt u r = [])⟩) := by
  have fin : ∀ (r : Key) (o : QueryOut),
      (if (ofList r).isEmpty then (pure (ofList r, { o with found := true }) : R _)
        else pure (ofList r, o)) = .ok (ofList r, { o with found := o.found || decide (r = []) }) := by
    intro r o
    rw [isEmpty_ofList]
    cases r <;> simp [R_pure]
  induction h with
  | empty a k =>
    intro out
    rw [queryRec]
    simp only [pieceOrNext, segmentOf, Trie.type, R_bind_ok]
    exact fin k ⟨out.path ++ [.empty], out.extra ++ [none], out.found⟩
  | hash a h k =>
    intro out
    rw [queryRec]
    simp only [pieceOrNext, segmentOf, Trie.type, R_bind_ok]
    exact fin k ⟨out.path ++ [.hash], out.extra ++ [some (.hash h)], out.found⟩
  | leaf a n v k =>
    intro out
    have hn : n = ofList n.toList := (ofList_toList hw).symm
    have hc : n.count = n.toList.length := (toList_length n).symm
    rw [queryRec]
    simp only [pieceOrNext, segmentOf, Trie.type, R_bind_ok, nextClamped]
    rw [getNextNibbles_ok (by omega) (by rw [ofList_count]; exact Nat.min_le_right _ _), R_bind_ok]
    have heq : (n == ofList (k.take (min n.count (ofList k).count))) =
        decide (n.toList = k.take n.toList.length) := by
      rw [ofList_count, hc]
      have : k.take (min n.toList.length k.length) = k.take n.toList.length := by
        rw [List.take_eq_take_iff]; omega
      rw [this]
      by_cases h : n.toList = k.take n.toList.length
      · rw [← h, ← hn]; simp
      · rw [decide_eq_false h, beq_eq_false_iff_ne]
        intro he
        apply h
        have := congrArg Nibbles.toList he
        rwa [toList_ofList (by simp; omega)] at this
    rw [heq]
    by_cases h : n.toList = k.take n.toList.length
    · rw [decide_eq_true h, if_pos rfl]
      have hle : n.toList.length ≤ k.length := by
        have := congrArg List.length h
        rw [List.length_take] at this; omega
      rw [ofList_count, ofList_count, List.length_take, hc]
      rw [show min (min n.toList.length k.length) k.length = n.toList.length by omega,
        popNibblesFront_ok P (by omega) hle (by omega)]
      simp only [R_bind_ok, R_pure]
      have := fin (k.drop n.toList.length)
        ⟨out.path ++ [.leaf n], out.extra ++ [some (.leaf v)], out.found⟩
      simpa [restAt, extraInfo, if_pos h] using this
    · rw [decide_eq_false h]
      simp only [Bool.false_eq_true, if_false, R_bind_ok, R_pure]
      have := fin k ⟨out.path ++ [.leaf n], out.extra ++ [some (.leaf v)], out.found⟩
      simpa [restAt, extraInfo, if_neg h] using this
  | branch a cs v d k xs u r h ih =>
    intro out
    simp only [List.length_cons] at hk
    rw [queryRec]
    simp only [pieceOrNext, segmentOf, Trie.type]
    rw [getNextNibbles_ok (by simp; omega) (by simp), R_bind_ok]
    rw [show List.take 1 (d :: k) = [d] from rfl, getNibble_ok P (by simp) (by simp)]
    simp only [R_bind_ok, R_pure]
    rw [popNextFront_ok P (by simp; omega)]
    simp only [R_bind_ok, idx16_val]
    rw [ih (hw d) (by omega), R_bind_ok]
    have := fin (restAt u r) ⟨out.path ++ (.branch d.val :: xs.map (·.2)),
      out.extra ++ (some (.branch (childMask cs)) :: xs.map (fun x => extraInfo x.1)),
        out.found || decide (restAt u r = [])⟩
    simpa [extraInfo] using this
  | ext a n c k xs u r h ih =>
    intro out
    rw [queryRec]
    simp only [pieceOrNext, segmentOf, Trie.type, R_bind_ok, nextClamped]
    rw [getNextNibbles_ok (by omega) (by rw [ofList_count]; exact Nat.min_le_right _ _), R_bind_ok,
      ih hw.2 hk, R_bind_ok]
    have := fin (restAt u r) ⟨out.path ++ (.ext n :: xs.map (·.2)),
      out.extra ++ (none :: xs.map (fun x => extraInfo x.1)), out.found || decide (restAt u r = [])⟩
    simpa [extraInfo] using this

theorem queryRec_panic {t : Trie α} : ∀ {k : Key}, (¬ ∃ xs u r, t.Tour k xs u r) → k.length ≤ 127 →
    ∀ out : QueryOut, ∃ e, queryRec P t (ofList k) out = .error e := by
  induction t with
  | empty a => intro k h; exact absurd ⟨_, _, _, .empty a k⟩ h
  | hash a x => intro k h; exact absurd ⟨_, _, _, .hash a x k⟩ h
  | leaf a n v => intro k h; exact absurd ⟨_, _, _, .leaf a n v k⟩ h
  | ext a n c ih =>
    intro k h hk out
    have h' : ¬ ∃ xs u r, c.Tour k xs u r := fun ⟨_, _, _, hx⟩ => h ⟨_, _, _, .ext a n c _ _ _ _ hx⟩
    rw [queryRec]
    simp only [pieceOrNext, segmentOf, Trie.type, R_bind_ok, nextClamped]
    rw [getNextNibbles_ok (by omega) (by rw [ofList_count]; exact Nat.min_le_right _ _), R_bind_ok]
    obtain ⟨e, he⟩ := ih h' hk ⟨out.path ++ [.ext n], out.extra ++ [extraInfo (.ext a n c)], out.found⟩
    rw [he]
    exact ⟨e, rfl⟩
  | branch a cs v ih =>
    intro k h hk out
    rw [queryRec]
    simp only [pieceOrNext, segmentOf, Trie.type]
    cases k with
    | nil =>
      obtain ⟨e, he⟩ := popNextFront_nil (P := P)
      cases h1 : (ofList []).getNextNibbles P 1 with
      | error e => exact ⟨e, rfl⟩
      | ok p =>
        rw [R_bind_ok]
        cases h2 : p.getNibble P 0 with
        | error e => exact ⟨e, rfl⟩
        | ok d =>
          rw [R_bind_ok, R_pure, R_bind_ok]
          simp only [he]
          exact ⟨e, rfl⟩
    | cons d k =>
      have h' : ¬ ∃ xs u r, (cs d).Tour k xs u r :=
        fun ⟨_, _, _, hx⟩ => h ⟨_, _, _, .branch a cs v d _ _ _ _ hx⟩
      simp only [List.length_cons] at hk
      rw [getNextNibbles_ok (by simp; omega) (by simp), R_bind_ok]
      rw [show List.take 1 (d :: k) = [d] from rfl, getNibble_ok P (by simp) (by simp)]
      simp only [R_bind_ok, R_pure]
      rw [popNextFront_ok P (by simp; omega)]
      simp only [R_bind_ok, idx16_val]
      obtain ⟨e, he⟩ := ih d h' (by omega) ⟨out.path ++ [.branch ([d][0]).val],
        out.extra ++ [extraInfo (.branch a cs v)], out.found⟩
      rw [he]
      exact ⟨e, rfl⟩

/-! ### The property -/

variable {K : Kind} {M : Mode} {kec : Bytes → H256} {s : Sys K.Ann K.State} {i : Nat}
  {t : Trie K.Ann}

/-- C40, what the tool does, in every build profile.  It follows the key but ignores the nibbles of
extensions; it lists the nodes that it visits, and says that the key was found if the key has no
nibbles left or exactly the nibbles of the leaf that it arrives at.  It panics if the key has no
nibbles left at a branch. -/
theorem C40_exact (h : Live K M P kec s) (hi : s.hs[i]? = some t) {k : Key} (hk : k.length ≤ 127) :
    (∀ xs u r, t.Tour k xs u r → ∃ out, query P t (ofList k) = .ok out ∧
      out.path = xs.map (·.2) ∧ List.Forall₂ (fun e x => ExtraInfo.Describes e x.1) out.extra xs ∧
      (out.found = true ↔ r = [] ∨ ∃ a n v, u = .leaf a n v ∧ n.toList = r)) ∧
    ((¬ ∃ xs u r, t.Tour k xs u r) → ∃ e, query P t (ofList k) = .error e) := by
  have hw := h.wfKeys (List.mem_of_getElem? hi)
  constructor
  · intro xs u r ht
    refine ⟨_, by rw [query, queryRec_tour ht hw hk, R_bind_ok]; rfl, by simp, ?_, by
      simp [restAt_nil]⟩
    simp only [List.nil_append, List.forall₂_map_left_iff]
    exact List.forall₂_same.2 fun x _ => extraInfo_describes x.1
  · intro hn
    obtain ⟨e, he⟩ := queryRec_panic hn hk ⟨[], [], false⟩
    exact ⟨e, by rw [query, he]; rfl⟩

example (K : Kind) (P : Profile) :
    (∀ xs u r, (caseT K P 0).Tour [2, 5, 5] xs u r → ∃ out, query P (caseT K P 0) (ofList [2, 5, 5]) = .ok out ∧
      out.path = xs.map (·.2) ∧ List.Forall₂ (fun e x => ExtraInfo.Describes e x.1) out.extra xs ∧
      (out.found = true ↔ r = [] ∨ ∃ a n v, u = .leaf a n v ∧ n.toList = r)) ∧
    ((¬ ∃ xs u r, (caseT K P 0).Tour [2, 5, 5] xs u r) →
      ∃ e, query P (caseT K P 0) (ofList [2, 5, 5]) = .error e) :=
  C40_exact (caseLive K P) (caseGet K P (by decide)) (by decide)

theorem lookup_tour {t : Trie α} {k : Key} {xs : List (Trie α × PathSegment)} {u : Trie α} {r : Key}
    (h : t.Lookup k xs u r) (hx : ∀ x ∈ xs, x.1.type ≠ .ext) : t.Tour k xs u r := by
  induction h with
  | empty a k => exact .empty a k
  | hash a x k => exact .hash a x k
  | leaf a n v k => exact .leaf a n v k
  | branch a cs v d k xs u r h ih =>
    exact .branch _ _ _ _ _ _ _ _ (ih fun x hx' => hx x (List.mem_cons_of_mem _ hx'))
  | ext a n c k xs u r h ih => exact absurd rfl (hx _ List.mem_cons_self)
  | away a n c k h => exact absurd rfl (hx _ List.mem_cons_self)

theorem lookup_contents {t : Trie α} {k : Key} {xs : List (Trie α × PathSegment)} {u : Trie α}
    {r : Key} (h : t.Lookup k xs u r) : t.contents k = u.contents r := by
  induction h with
  | empty | hash | leaf => rfl
  | branch a cs v d k xs u r h ih => exact ih
  | ext a n c k xs u r h ih =>
    rw [← ih]
    exact LNode.absL_ext_append _ _ _
  | away a n c k h => rfl

theorem lookup_end {t : Trie α} {k : Key} {xs : List (Trie α × PathSegment)} {u : Trie α}
    {r : Key} (h : t.Lookup k xs u r) : u.type ≠ .branch ∧ ∃ x ∈ xs, x.1 = u := by
  induction h with
  | empty | hash | leaf | away => exact ⟨by simp [Trie.type], _, List.mem_singleton_self _, rfl⟩
  | branch a cs v d k xs u r h ih =>
    obtain ⟨h1, x, h2, h3⟩ := ih
    exact ⟨h1, x, List.mem_cons_of_mem _ h2, h3⟩
  | ext a n c k xs u r h ih =>
    obtain ⟨h1, x, h2, h3⟩ := ih
    exact ⟨h1, x, List.mem_cons_of_mem _ h2, h3⟩

/-- C40, the part that holds.  If there is no extension on the lookup path of `k`, the tool lists
the nodes and key pieces on this path, and describes the nodes; and it says that the key was found
if and only if `k` is stored or no nibbles of `k` are left where the lookup ends.

What is missing: keys whose lookup path has an extension, keys that end at a branch, and absent keys
that end at an empty node or at a leaf. -/
theorem C40_partial (h : Live K M P kec s) (hi : s.hs[i]? = some t) {k : Key} (hk : k.length ≤ 127)
    {xs : List (Trie K.Ann × PathSegment)} {u : Trie K.Ann} {r : Key} (hl : t.Lookup k xs u r)
    (hx : ∀ x ∈ xs, x.1.type ≠ .ext) :
    ∃ out, query P t (ofList k) = .ok out ∧ out.path = xs.map (·.2) ∧
      List.Forall₂ (fun e x => ExtraInfo.Describes e x.1) out.extra xs ∧
      (out.found = true ↔ t.contents k ≠ none ∨ r = []) := by
  obtain ⟨out, h1, h2, h3, h4⟩ := (C40_exact h hi hk).1 xs u r (lookup_tour hl hx)
  refine ⟨out, h1, h2, h3, ?_⟩
  rw [h4, lookup_contents hl]
  obtain ⟨h5, x, h6, h7⟩ := lookup_end hl
  have h8 := hx x h6
  rw [h7] at h8
  cases u with
  | empty a => simp [Trie.contents, Trie.plain]
  | hash a y =>
    simp only [Trie.contents, Trie.plain, LNode.absL_hash]
    by_cases hr : r = [] <;> simp [hr]
  | branch a cs v => exact absurd rfl h5
  | ext a n c => exact absurd rfl h8
  | leaf a n v =>
    simp only [Trie.contents, Trie.plain, LNode.absL_leaf]
    have hl : (∃ a' n' v', Trie.leaf a n v = .leaf a' n' v' ∧ n'.toList = r) ↔ r = n.toList :=
      ⟨fun ⟨_, _, _, he, hr⟩ => by cases he; exact hr.symm, fun hr => ⟨a, n, v, rfl, hr.symm⟩⟩
    rw [hl]
    by_cases hr : r = n.toList
    · simp [hr]
    · simp [hr]

/-- C40: when nibbles of the key are left where the lookup ends, the answer is right. -/
theorem C40_found (h : Live K M P kec s) (hi : s.hs[i]? = some t) {k : Key} (hk : k.length ≤ 127)
    {xs : List (Trie K.Ann × PathSegment)} {u : Trie K.Ann} {r : Key} (hl : t.Lookup k xs u r)
    (hx : ∀ x ∈ xs, x.1.type ≠ .ext) (hr : r ≠ []) :
    ∃ out, query P t (ofList k) = .ok out ∧ (out.found = true ↔ t.contents k ≠ none) := by
  obtain ⟨out, h1, _, _, h2⟩ := C40_partial h hi hk hl hx
  exact ⟨out, h1, by rw [h2]; simp [hr]⟩

/-- Run a program, query handle 0, and look the key up. -/
def queryObs (K : Kind) (P : Profile) (kec : Bytes → H256) (cs : List Cmd) (k : Key) :
    R (QueryOut × Option ValOrHash) := do
  let (s, _) ← K.run P kec cs
  match s.hs[0]? with
  | some t => return (← query P t (ofList k), t.contents k)
  | none => .error .expectFailed

/-- C40 fails: a key that is not stored is found (the slot of the branch is empty). -/
theorem C40_false_absent : ∀ (K : Kind) (P : Profile) (kec : Bytes → H256),
    queryObs K P kec [.fromIter [([1], .val [7]), ([2], .val [8])]] [3] =
      .ok (⟨[.branch 3, .empty], [some (.branch 0b110), none], true⟩, none) := by
  intro K ⟨P⟩ _; cases K <;> cases P <;> kernel_rfl

/-- C40 fails: a key that is stored below an extension is not found, and the path ends at the leaf of
another key. -/
theorem C40_false_stored : ∀ (K : Kind) (P : Profile) (kec : Bytes → H256),
    queryObs K P kec [.fromIter [([1, 1], .val [7]), ([1, 2], .val [8])]] [1, 2] =
      .ok (⟨[.ext ⟨1, 1⟩, .branch 1, .leaf ⟨0, 0⟩], [none, some (.branch 0b110), some (.leaf [7])],
        false⟩, some (.val [8])) := by
  intro K ⟨P⟩ _; cases K <;> cases P <;> kernel_rfl

/-- C40 fails: the query for a key that is stored in a branch panics. -/
theorem C40_false_panic : ∀ (K : Kind) (P : Profile) (kec : Bytes → H256),
    (∃ e, queryObs K P kec [.fromIter [([1], .val [7]), ([2], .val [9]), ([1, 2], .val [8])]] [1] = .error e) ∧
    K.obs P kec [.fromIter [([1], .val [7]), ([2], .val [9]), ([1, 2], .val [8])], .get 0 [1]] =
      .ok [.unit, .val (some [7])] := by
  intro K ⟨P⟩ _
  cases P
  · exact ⟨⟨.indexOutOfBounds, by cases K <;> kernel_rfl⟩, by cases K <;> kernel_rfl⟩
  · exact ⟨⟨.overflow, by cases K <;> kernel_rfl⟩, by cases K <;> kernel_rfl⟩

/-- A stored key and an absent key whose lookup paths have no extension. -/
example : ∀ (K : Kind) (P : Profile) (kec : Bytes → H256),
    queryObs K P kec [.fromIter [([1, 5], .val [7]), ([2, 3], .val [8]), ([2, 4, 6], .val [9])]] [2, 4, 6] =
      .ok (⟨[.branch 2, .branch 4, .leaf ⟨1, 6⟩], [some (.branch 0b110), some (.branch 0b11000),
        some (.leaf [9])], true⟩, some (.val [9])) ∧
    queryObs K P kec [.fromIter [([1, 5], .val [7]), ([2, 3], .val [8]), ([2, 4, 6], .val [9])]] [2, 4, 7] =
      .ok (⟨[.branch 2, .branch 4, .leaf ⟨1, 6⟩], [some (.branch 0b110), some (.branch 0b11000),
        some (.leaf [9])], false⟩, none) := by
  intro K ⟨P⟩ _; cases K <;> cases P <;> constructor <;> kernel_rfl

end EthTrie
