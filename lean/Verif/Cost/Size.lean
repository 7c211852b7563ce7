import Verif.Cost.Hash
import Verif.Cost.Alloc
import Verif.Subset.Batch
import Verif.Sys.Live

/-!
# The sizes of tries and of subsets
-/

namespace EthTrie

open Nibbles LNode Spec

variable {P : Profile} {kec : Bytes → H256}

/-- The number of nodes of a list-keyed trie. -/
def LNode.nodeCount : LNode → Nat
  | .branch cs _ => 1 + sum16 fun i => (cs i).nodeCount
  | .ext _ c => 1 + c.nodeCount
  | _ => 1

theorem nodeCount_plain {α : Type} : ∀ t : Trie α, t.plain.nodeCount = t.nodeCount := by
  intro t
  induction t with
  | branch a cs v ih => simp only [Trie.plain, LNode.nodeCount, Trie.nodeCount, ih]
  | ext a n c ih => simp only [Trie.plain, LNode.nodeCount, Trie.nodeCount, ih]
  | _ => rfl

theorem LNode.nodeCount_pos (l : LNode) : 1 ≤ l.nodeCount := by
  cases l <;> simp only [LNode.nodeCount] <;> omega

/-! ## Short encodings -/

theorem sum16_add (f g : Fin 16 → Nat) : sum16 (fun i => f i + g i) = sum16 f + sum16 g := by
  unfold sum16
  induction List.finRange 16 with
  | nil => rfl
  | cons i l ih => simp only [List.map_cons, List.sum_cons, ih]; omega

theorem sum16_single (d : Fin 16) (n : Nat) : sum16 (fun i => if i = d then n else 0) = n := by
  have := sum16_upd (fun x : Nat => x) (fun _ => 0) d n
  have e : (fun i => upd (fun _ : Fin 16 => 0) d n i) = fun i => if i = d then n else 0 := by
    funext i; rfl
  simp only at this
  rw [show sum16 (fun i => upd (fun _ : Fin 16 => 0) d n i) = _ from congrArg sum16 e,
    sum16_zero (f := fun _ => 0) fun _ => rfl] at this
  omega

theorem sum16_one (f : Fin 16 → Nat) (h : ∀ i, 1 ≤ f i) (j : Fin 16) : 15 + f j ≤ sum16 f := by
  have h1 := sum16_le (f := fun i => 1 + if i = j then f j - 1 else 0) (g := f) fun i => by
    have := h i
    by_cases e : i = j
    · subst e; rw [if_pos rfl]; omega
    · rw [if_neg e]; omega
  rw [sum16_add, sum16_single] at h1
  have := h j
  have e : sum16 (fun _ => 1) = 16 := by decide
  omega

theorem item_pos (l : LNode) : 1 ≤ (l.enc kec).item.length := by
  have hl : ∀ xs, 1 ≤ (hashIfLarge kec (rlpList xs)).item.length := by
    intro xs
    unfold hashIfLarge
    split
    · have := rlpList_length xs
      simp only [EncodedNode.item]
      omega
    · have := rlpValue_hash (kec (rlpList xs))
      simp only [EncodedNode.item]
      omega
  cases l with
  | empty => simp [LNode.enc, EncodedNode.item]
  | hash x =>
    have := rlpValue_hash x
    simp only [LNode.enc, EncodedNode.item]
    omega
  | leaf n v => exact hl _
  | ext n c => exact hl _
  | branch cs v => exact hl _

theorem branch_len {cs : Fin 16 → LNode} {v b : Bytes} (h : (LNode.branch cs v).enc kec = .raw b) (j : Fin 16) :
    17 + ((cs j).enc kec).item.length ≤ b.length ∧ b.length < 32 := by
  simp only [LNode.enc] at h
  obtain ⟨rfl, h2⟩ := hashIfLarge_raw h
  refine ⟨?_, h2⟩
  have h3 := rlpList_length (((List.finRange 16).map fun i => ((cs i).enc kec).item) ++
      [if v = [] then [0x80] else rlpValue v])
  rw [List.map_append, List.sum_append, List.map_map] at h3
  have h4 := sum16_one (fun i => ((cs i).enc kec).item.length) (fun i => item_pos _) j
  have h5 : 1 ≤ ([if v = [] then [0x80] else rlpValue v].map List.length).sum := by
    have := rlpValue_pos v
    split <;> simp <;> omega
  simp only [sum16] at h4
  have h6 : (List.map (List.length ∘ fun i => ((cs i).enc kec).item) (List.finRange 16)).sum =
    (List.map (fun i => ((cs i).enc kec).item.length) (List.finRange 16)).sum := rfl
  omega

/-- A node with a short encoding is a leaf, a branch of leaves, or an extension of such a branch. -/
theorem enc_count (l : LNode) (hx : l.ExtOK) {b : Bytes} (h : l.enc kec = .raw b) : l.nodeCount ≤ 18 := by
  have br : ∀ {cs : Fin 16 → LNode} {v b : Bytes}, (∀ i, (cs i).ExtOK) → (LNode.branch cs v).enc kec = .raw b →
      (LNode.branch cs v).nodeCount = 17 := by
    intro cs v b hx h
    have one : ∀ i, (cs i).nodeCount = 1 := by
      intro i
      have hi := branch_len h i
      have hxi := hx i
      cases hc : cs i with
      | branch ds w =>
        rw [hc] at hi
        obtain ⟨b', hb'⟩ := LTracked.item_raw (e := (LNode.branch ds w).enc kec) (by omega)
        have := branch_len hb' 0
        rw [hb'] at hi
        simp only [EncodedNode.item] at hi
        omega
      | ext n d =>
        rw [hc] at hi hxi
        obtain ⟨b', hb'⟩ := LTracked.item_raw (e := (LNode.ext n d).enc kec) (by omega)
        rw [hb'] at hi
        simp only [EncodedNode.item] at hi
        have hb2 := hb'
        simp only [LNode.enc] at hb2
        obtain ⟨rfl, h2⟩ := hashIfLarge_raw hb2
        have h3 := rlpList_length [rlpValue (HP n false), (d.enc kec).item]
        simp only [List.map_cons, List.map_nil, List.sum_cons, List.sum_nil] at h3
        have hbh := hxi.2.1
        have h3 : (d.enc kec).item.length ≤ 14 := by omega
        cases hd : d with
        | branch ds w =>
          rw [hd] at h3
          obtain ⟨b'', hb''⟩ := LTracked.item_raw (e := (LNode.branch ds w).enc kec) (by omega)
          have := branch_len hb'' 0
          rw [hb''] at h3
          simp only [EncodedNode.item] at h3
          omega
        | hash x =>
          rw [hd] at h3
          have := rlpValue_hash x
          simp only [LNode.enc, EncodedNode.item] at h3
          omega
        | _ => rw [hd] at hbh; exact hbh.elim
      | _ => rfl
    simp only [LNode.nodeCount, one]
    decide
  cases l with
  | branch cs v => exact Nat.le_of_eq (br hx h) |>.trans (by omega)
  | ext n c =>
    have hbh := hx.2.1
    simp only [LNode.enc] at h
    obtain ⟨rfl, h2⟩ := hashIfLarge_raw h
    have h3 := rlpList_length [rlpValue (HP n false), (c.enc kec).item]
    simp only [List.map_cons, List.map_nil, List.sum_cons, List.sum_nil] at h3
    have h3 : (c.enc kec).item.length ≤ 31 := by omega
    cases c with
    | branch ds w =>
      obtain ⟨b', hb'⟩ := LTracked.item_raw (e := (LNode.branch ds w).enc kec) (by omega)
      have := br hx.2.2 hb'
      simp only [LNode.nodeCount] at this ⊢
      omega
    | hash x =>
      have := rlpValue_hash x
      simp only [LNode.enc, EncodedNode.item] at h3
      omega
    | _ => exact hbh.elim
  | _ => exact (by decide : 1 ≤ 18)

/-! ## Subsets -/

/-- The lengths of the keys of a subset, each plus one. -/
def keyLoad (ks : List Key) : Nat := (ks.map fun k => k.length + 1).sum

theorem keyLoad_append (a b : List Key) : keyLoad (a ++ b) = keyLoad a + keyLoad b := by
  simp [keyLoad]

theorem keyLoad_pos {ks : List Key} (h : ks ≠ []) : (ks.map List.length).sum + 1 ≤ keyLoad ks := by
  induction ks with
  | nil => exact absurd rfl h
  | cons k ks ih =>
    simp only [keyLoad, List.map_cons, List.sum_cons] at ih ⊢
    by_cases e : ks = []
    · subst e; simp
    · have := ih e
      omega

theorem down_cons (d : Fin 16) (k : Key) (ks : List Key) : down d (k :: ks) = down d [k] ++ down d ks :=
  down_append d [k] ks

/-- The keys below the children of a branch. -/
theorem down_load : ∀ ks : List Key, sum16 (fun i => keyLoad (down i ks)) ≤ (ks.map List.length).sum
  | [] => Nat.le_of_eq (sum16_zero fun _ => rfl)
  | k :: ks => by
    have e : (fun i => keyLoad (down i (k :: ks))) = fun i => keyLoad (down i [k]) + keyLoad (down i ks) := by
      funext i; rw [down_cons, keyLoad_append]
    rw [e, sum16_add]
    have ih := down_load ks
    have h1 : sum16 (fun i => keyLoad (down i [k])) ≤ k.length := by
      cases k with
      | nil => exact Nat.le_of_eq (sum16_zero fun _ => rfl)
      | cons d k =>
        refine Nat.le_of_eq ?_
        rw [← sum16_single d (d :: k).length]
        refine congrArg sum16 (funext fun i => ?_)
        by_cases hi : i = d
        · subst hi; simp [down, keyLoad]
        · rw [LTracked.down_single_ne k hi, if_neg hi]; rfl
    simp only [List.map_cons, List.sum_cons]
    omega

theorem through_load {n : Key} : ∀ ks : List Key,
    ((through P n ks).map List.length).sum ≤ (ks.map List.length).sum
  | [] => Nat.le_refl _
  | k :: ks => by
    have ih := through_load (n := n) ks
    rw [show through P n (k :: ks) = through P n [k] ++ through P n ks from through_append P n [k] ks]
    simp only [List.map_append, List.sum_append, List.map_cons, List.sum_cons]
    have : ((through P n [k]).map List.length).sum ≤ k.length := by
      unfold through
      simp only [List.filterMap_cons, List.filterMap_nil]
      split
      · exact Nat.zero_le _
      · rename_i b hb
        split at hb
        · rename_i k' he
          cases hb
          simpa using LTracked.extRest_length he
        · cases hb
    omega

/-- A node that is not marked is replaced, or it is small. -/
theorem subset_untouched_count {t : LTracked} (hx : t.node.ExtOK) (h : t.touched = false) : (t.subset kec).nodeCount ≤ 18 := by
  cases he : t.node.enc kec with
  | raw b =>
    rw [LTracked.subset_small t b he]
    exact enc_count t.node hx he
  | hashed x =>
    rw [LTracked.subset_eq]
    have : t.away kec = some x := by simp [LTracked.away, h, he]
    rw [this]
    exact (by decide : 1 ≤ 18)

theorem branch_sum (f : Fin 16 → Nat) (ks : List Key) (h : ∀ i, f i ≤ 18 + 288 * keyLoad (down i ks)) :
    sum16 f ≤ 288 + 288 * (ks.map List.length).sum := by
  have h1 := sum_affine (List.finRange 16) (g := fun i => keyLoad (down i ks)) fun i _ => h i
  rw [List.length_finRange] at h1
  have h2 := down_load ks
  unfold sum16 at *
  omega

theorem subset_count : ∀ (l : LNode) (ks : List Key), l.ExtOK →
    ((LTracked.flagged P l ks).subset kec).nodeCount ≤ 18 + 288 * keyLoad ks ∧
    (l.isBH → ks ≠ [] →
      ((LTracked.flagged P l ks).subset kec).nodeCount ≤ 289 + 288 * (ks.map List.length).sum) := by
  intro l
  have un : ∀ l : LNode, l.ExtOK → ((LTracked.flagged P l []).subset kec).nodeCount ≤ 18 := fun l hx =>
    subset_untouched_count (by rwa [LTracked.flagged_node]) (by rw [LTracked.flagged_touched]; rfl)
  induction l with
  | empty => intro ks _; exact ⟨by show 1 ≤ _; omega, fun h => h.elim⟩
  | hash x => intro ks _; exact ⟨by show 1 ≤ _; omega, fun _ _ => by show 1 ≤ _; omega⟩
  | leaf n v =>
    intro ks _
    refine ⟨?_, fun h => h.elim⟩
    have : ((LTracked.flagged P (.leaf n v) ks).subset kec).nodeCount = 1 := by
      simp only [LTracked.flagged, LTracked.subset]
      split <;> rfl
    omega
  | branch cs v ih =>
    intro ks hx
    have key : ks ≠ [] → ((LTracked.flagged P (.branch cs v) ks).subset kec).nodeCount ≤
        289 + 288 * (ks.map List.length).sum := by
      intro hk
      have ha : LTracked.away kec (LTracked.flagged P (.branch cs v) ks) = none :=
        LTracked.away_touched (by rw [LTracked.flagged_touched]; simpa using hk)
      have e : ((LTracked.flagged P (.branch cs v) ks).subset kec).nodeCount =
          1 + sum16 fun i => ((LTracked.flagged P (cs i) (down i ks)).subset kec).nodeCount := by
        simp only [LTracked.flagged] at ha ⊢
        simp only [LTracked.subset, ha]
        rfl
      rw [e]
      have h1 := branch_sum (fun i => ((LTracked.flagged P (cs i) (down i ks)).subset kec).nodeCount) ks
        fun i => (ih i (down i ks) (hx i)).1
      omega
    refine ⟨?_, fun _ hk => key hk⟩
    by_cases hk : ks = []
    · subst hk
      exact Nat.le_trans (un _ hx) (by omega)
    · have h1 := key hk
      have h2 := keyLoad_pos hk
      omega
  | ext n c ih =>
    intro ks hx
    refine ⟨?_, fun h => h.elim⟩
    by_cases hk : ks = []
    · subst hk
      exact Nat.le_trans (un _ hx) (by omega)
    · have ha : LTracked.away kec (LTracked.flagged P (.ext n c) ks) = none :=
        LTracked.away_touched (by rw [LTracked.flagged_touched]; simpa using hk)
      have e : ((LTracked.flagged P (.ext n c) ks).subset kec).nodeCount =
          1 + ((LTracked.flagged P c (through P n ks)).subset kec).nodeCount := by
        simp only [LTracked.flagged] at ha ⊢
        simp only [LTracked.subset, ha]
        rfl
      rw [e]
      have h2 := keyLoad_pos hk
      have h3 := through_load (P := P) (n := n) ks
      by_cases ht : through P n ks = []
      · rw [ht]
        have := un c hx.2.2
        omega
      · have := (ih (through P n ks) hx.2.2).2 hx.2.1 ht
        omega

/-- The same after earlier lists of keys. -/
theorem batch_count (l : LNode) (prev cur : List Key) (hx : l.ExtOK) :
    ((LTracked.batch P l prev cur).subset kec).nodeCount ≤ 18 + 288 * keyLoad (prev ++ cur) := by
  by_cases hk : prev ++ cur = []
  · obtain ⟨rfl, rfl⟩ := List.append_eq_nil_iff.1 hk
    rw [LTracked.batch_nil]
    exact (subset_count l [] hx).1
  have set : ∀ (t : LTracked) (n : Nat) (b : Bool), t.node.ExtOK → (t.subset kec).nodeCount ≤ n → 18 ≤ n →
      (b = true → t.touched = true) → ((t.setTouched b).subset kec).nodeCount ≤ n := by
    intro t n b hx h1 h2 h3
    cases b with
    | false => exact Nat.le_trans (subset_untouched_count (by rwa [LTracked.node_setTouched]) (LTracked.touched_setTouched _ _)) h2
    | true => rw [← h3 rfl, LTracked.setTouched_self]; exact h1
  have hp := keyLoad_pos hk
  cases l with
  | branch cs v =>
    have ha : LTracked.away kec (LTracked.batch P (.branch cs v) prev cur) = none :=
      LTracked.away_touched (by simp only [LTracked.batch, LTracked.touched]; simpa using hk)
    have e : ((LTracked.batch P (.branch cs v) prev cur).subset kec).nodeCount =
        1 + sum16 fun i => (((LTracked.flagged P (cs i) (down i (prev ++ cur))).setTouched
          (!(down i cur).isEmpty)).subset kec).nodeCount := by
      simp only [LTracked.batch] at ha ⊢
      simp only [LTracked.subset, ha]
      rfl
    rw [e]
    have h1 := branch_sum (fun i => (((LTracked.flagged P (cs i) (down i (prev ++ cur))).setTouched
      (!(down i cur).isEmpty)).subset kec).nodeCount) (prev ++ cur) fun i => by
        refine set _ _ _ (by rw [LTracked.flagged_node]; exact hx i) (subset_count (cs i) _ (hx i)).1 (by omega) fun h => ?_
        rw [LTracked.flagged_touched, down_append]
        simp at h ⊢
        exact fun _ => h
    omega
  | ext n c =>
    have ha : LTracked.away kec (LTracked.batch P (.ext n c) prev cur) = none :=
      LTracked.away_touched (by simp only [LTracked.batch, LTracked.touched]; simpa using hk)
    have e : ((LTracked.batch P (.ext n c) prev cur).subset kec).nodeCount =
        1 + (((LTracked.flagged P c (through P n (prev ++ cur))).setTouched
          (!(through P n cur).isEmpty)).subset kec).nodeCount := by
      simp only [LTracked.batch] at ha ⊢
      simp only [LTracked.subset, ha]
      rfl
    rw [e]
    have h3 := through_load (P := P) (n := n) (prev ++ cur)
    cases hb : !(through P n cur).isEmpty with
    | false =>
      have := subset_untouched_count (kec := kec)
        (by rw [LTracked.node_setTouched, LTracked.flagged_node]; exact hx.2.2)
        (LTracked.touched_setTouched (LTracked.flagged P c (through P n (prev ++ cur))) false)
      omega
    | true =>
      have ht : through P n (prev ++ cur) ≠ [] := by
        rw [through_append]
        simp at hb ⊢
        exact fun _ => hb
      have := set (LTracked.flagged P c (through P n (prev ++ cur))) _ true
        (by rw [LTracked.flagged_node]; exact hx.2.2) ((subset_count c _ hx.2.2).2 hx.2.1 ht) (by omega) fun _ => by
          rw [LTracked.flagged_touched]; simpa using ht
      omega
  | empty => show 1 ≤ _; omega
  | hash x => show 1 ≤ _; omega
  | leaf n v =>
    have : ((LTracked.flagged P (.leaf n v) cur).subset kec).nodeCount = 1 := by
      simp only [LTracked.flagged, LTracked.subset]
      split <;> rfl
    show ((LTracked.flagged P (.leaf n v) cur).subset kec).nodeCount ≤ _
    omega

/-! ## Subsets consist of new nodes -/

section
variable {α β γ S : Type}

/-- The program makes `n` nodes and returns `b`, with `Q n b`, whatever it reads, unless it panics. -/
def Exact : Prog α β → (Nat → β → Prop) → Prop
  | .ret b, Q => Q 0 b
  | .panic _, _ => True
  | .alloc k, Q => ∀ a, Exact (k a) fun n b => Q (n + 1) b
  | .read _ k, Q => ∀ x, Exact (k x) Q
  | .write _ _ k, Q => Exact k Q

theorem Exact.run [K : TrieKind α S] {p : Prog α β} {Q : Nat → β → Prop} (h : Exact p Q) {s s' : S} {b : β}
    (hr : p.run s = .ok (b, s')) : Q (p.allocs s) b := by
  induction p generalizing Q s with
  | ret b => cases hr; exact h
  | panic e => cases hr
  | alloc k ih =>
    have := ih _ (h _) hr
    simp only [Prog.allocs]
    rw [Nat.add_comm]
    exact this
  | read a k ih => exact ih _ (h _) hr
  | write a v k ih => exact ih h hr

theorem Exact.mono {p : Prog α β} {Q Q' : Nat → β → Prop} (h : Exact p Q) (hq : ∀ n b, Q n b → Q' n b) :
    Exact p Q' := by
  induction p generalizing Q Q' with
  | ret b => exact hq _ _ h
  | panic e => trivial
  | alloc k ih => exact fun a => ih a (h a) fun n b => hq (n + 1) b
  | read a k ih => exact fun x => ih x (h x) hq
  | write a v k ih => exact ih h hq

theorem Exact.bind {p : Prog α β} {f : β → Prog α γ} {Q : Nat → β → Prop} {Q' : Nat → γ → Prop}
    (h : Exact p Q) (hf : ∀ n b, Q n b → Exact (f b) fun m c => Q' (n + m) c) : Exact (p >>= f) Q' := by
  induction p generalizing Q Q' with
  | ret b => exact (hf 0 b h).mono fun n c hc => by rwa [Nat.zero_add] at hc
  | panic e => trivial
  | alloc k ih =>
    exact fun a => ih a (h a) fun n b hb => (hf _ b hb).mono fun m c hc => by
      rwa [show n + 1 + m = n + m + 1 by omega] at hc
  | read a k ih => exact fun x => ih x (h x) hf
  | write a v k ih => exact ih h hf

theorem Exact.lift {r : R β} {f : β → Prog α γ} {Q : Nat → γ → Prop} (hf : ∀ b, r = .ok b → Exact (f b) Q) :
    Exact (Prog.lift r >>= f) Q := by
  cases r with
  | ok b => exact hf b rfl
  | error e => trivial

theorem Allocs.exact {p : Prog α β} (h : Allocs p 0 fun _ => True) : Exact p fun n _ => n = 0 := by
  induction p with
  | ret b => rfl
  | panic e => trivial
  | alloc k ih =>
    obtain ⟨m, e, -⟩ := h
    omega
  | read a k ih => exact fun x => ih x (h x)
  | write a v k ih => exact ih h

theorem exact_one {f : α → β} {Q : Nat → β → Prop} (h : ∀ a, Q 1 (f a)) : Exact (.alloc fun a => .ret (f a)) Q := h

theorem exact_seq {f : Fin 16 → Prog α (Trie α)} (h : ∀ i, Exact (f i) fun n t => n = t.nodeCount) :
    ∀ l : List (Fin 16), Exact (Prog.seq (l.map f)) fun n ts => n = (ts.map Trie.nodeCount).sum ∧
      ts.length = l.length
  | [] => ⟨rfl, rfl⟩
  | i :: l => by
    simp only [List.map_cons]
    unfold Prog.seq
    refine (h i).bind fun n t hn => (exact_seq h l).bind fun m ts hm => ?_
    exact ⟨by simp only [List.map_cons, List.sum_cons]; omega, by simp [hm.2]⟩

theorem sum_getD {ts : List (Trie α)} (h : ts.length = 16) (e : Trie α) :
    sum16 (fun i => (ts.getD i.val e).nodeCount) = (ts.map Trie.nodeCount).sum := by
  unfold sum16
  refine congrArg List.sum (List.ext_getElem (by simp [h]) fun i h1 h2 => ?_)
  have hi : i < ts.length := by simpa using h2
  simp [List.getD_eq_getElem?_getD, List.getElem?_eq_getElem hi]

theorem exact_createSubset : ∀ tr : Tracked α,
    Exact (createSubset P kec tr) fun n t => n = t.nodeCount := by
  have away : ∀ tr : Tracked α, Exact (hashAway P kec tr) fun n _ => n = 0 := fun tr =>
    (made_hashAway tr).exact
  intro tr
  induction tr with
  | empty u b =>
    unfold createSubset
    refine (away _).bind fun n x hn => ?_
    subst hn
    cases x <;> exact exact_one fun _ => rfl
  | hash u b =>
    unfold createSubset
    refine (away _).bind fun n x hn => ?_
    subst hn
    cases x with
    | some x => exact exact_one fun _ => rfl
    | none => exact Exact.lift fun _ _ => exact_one fun _ => rfl
  | leaf u b =>
    unfold createSubset
    refine (away _).bind fun n x hn => ?_
    subst hn
    cases x with
    | some x => exact exact_one fun _ => rfl
    | none => exact Exact.lift fun _ _ => exact_one fun _ => rfl
  | ext u b c ih =>
    unfold createSubset
    refine (away _).bind fun n x hn => ?_
    subst hn
    cases x with
    | some x => exact exact_one fun _ => rfl
    | none =>
      refine Exact.lift fun _ _ => ih.bind fun n t hn => exact_one fun _ => ?_
      simp only [Trie.nodeCount]
      omega
  | branch u b cs ih =>
    unfold createSubset
    refine (away _).bind fun n x hn => ?_
    subst hn
    cases x with
    | some x => exact exact_one fun _ => rfl
    | none =>
      refine Exact.lift fun _ _ => (exact_seq ih _).bind fun n ts hn => Exact.lift fun e _ => exact_one fun _ => ?_
      simp only [Trie.nodeCount]
      rw [sum_getD (by simpa using hn.2), hn.1]
      omega

theorem exact_subset (t : Trie α) (ks : List Nibbles) : Exact (createTrieSubset P kec t ks) fun n r =>
    ∀ t', r = .ok t' → n = t'.nodeCount := by
  unfold createTrieSubset
  refine Exact.lift fun r _ => ?_
  cases r with
  | error e => exact fun _ h => nomatch h
  | ok tr =>
    refine (exact_createSubset tr).bind fun n t hn => ?_
    intro t' h
    cases h
    omega

end

/-! ## The number of nodes and the number of entries -/

/-- The number of entries. -/
def LNode.entryCount : LNode → Nat
  | .empty => 0
  | .branch cs v => (sum16 fun i => (cs i).entryCount) + if v = [] then 0 else 1
  | .ext _ c => c.entryCount
  | _ => 1

theorem plain_items_length : ∀ (l : LNode) (p : Key), (l.items p).length = l.entryCount := by
  intro l
  induction l with
  | branch cs v ih =>
    intro p
    simp only [LNode.items, LNode.entryCount, List.length_append, List.length_flatten, List.map_map, sum16,
      Function.comp_def, ih]
    split <;> rfl
  | ext n c ih => intro p; exact ih _
  | _ => intro p; rfl

theorem sum16_mul (n : Nat) (f : Fin 16 → Nat) : sum16 (fun i => n * f i) = n * sum16 f := by
  unfold sum16
  induction List.finRange 16 with
  | nil => rfl
  | cons i l ih => simp only [List.map_cons, List.sum_cons, ih, Nat.mul_add]

theorem two_le_sum16 {f : Fin 16 → Nat} {i j : Fin 16} (h : i ≠ j) (hi : 1 ≤ f i) (hj : 1 ≤ f j) :
    2 ≤ sum16 f := by
  have h1 := sum16_le (f := fun k => (if k = i then 1 else 0) + if k = j then 1 else 0) (g := f) fun k => by
    by_cases e : k = i
    · subst e
      simp only [if_true, if_neg h]
      omega
    · by_cases e' : k = j
      · subst e'
        simp only [if_true, if_neg e]
        omega
      · simp only [if_neg e, if_neg e']
        omega
  rw [sum16_add, sum16_single, sum16_single] at h1
  omega

theorem count_entries : ∀ l : LNode, l.Canon → l ≠ .empty →
    l.nodeCount + 16 ≤ 18 * l.entryCount ∧ (l.isBH → l.nodeCount + 17 ≤ 18 * l.entryCount) := by
  intro l
  induction l with
  | empty => exact fun _ h => absurd rfl h
  | hash x => exact fun _ _ => ⟨by simp [LNode.nodeCount, LNode.entryCount], fun _ => by simp [LNode.nodeCount, LNode.entryCount]⟩
  | leaf n v => exact fun _ _ => ⟨by simp [LNode.nodeCount, LNode.entryCount], fun h => h.elim⟩
  | ext n c ih =>
    intro hc _
    have hne : c ≠ .empty := fun e => by
      have := hc.2.1
      rw [e] at this
      exact this
    have := (ih hc.2.2 hne).2 hc.2.1
    simp only [LNode.nodeCount, LNode.entryCount]
    exact ⟨by omega, fun h => h.elim⟩
  | branch cs v ih =>
    intro hc _
    classical
    have key : (LNode.branch cs v).nodeCount + 17 ≤ 18 * (LNode.branch cs v).entryCount := by
      have h1 := sum_affine (List.finRange 16) (a := 1) (b := 18) (g := fun i => (cs i).entryCount)
        (f := fun i => (cs i).nodeCount + 17 * if cs i = .empty then 0 else 1) fun i _ => by
          by_cases e : cs i = .empty
          · rw [if_pos e, e]; decide
          · rw [if_neg e]
            have := (ih i (hc.1 i) e).1
            omega
      rw [List.length_finRange] at h1
      have h2 := sum16_add (fun i => (cs i).nodeCount) fun i => 17 * if cs i = .empty then 0 else 1
      have h3 := sum16_mul 17 fun i => if cs i = .empty then 0 else 1
      simp only [LNode.nodeCount, LNode.entryCount]
      unfold sum16 at *
      rcases hc.2 with ⟨i, j, hij, hi, hj⟩ | ⟨hv, i, hi⟩
      · have := two_le_sum16 (f := fun i => if cs i = .empty then 0 else 1) hij
          (by rw [if_neg hi]) (by rw [if_neg hj])
        unfold sum16 at this
        split <;> omega
      · have := le_sum16 (fun i => if cs i = .empty then 0 else 1) i
        simp only [if_neg hi] at this
        unfold sum16 at this
        rw [if_neg hv]
        omega
    exact ⟨by omega, fun _ => key⟩

end EthTrie
