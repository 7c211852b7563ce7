import Verif.Subset.Model
import Verif.Trie.Sim2
import Verif.Trie.Iter
import Mathlib.Data.List.Forall2

/-!
# Subsets of list-keyed tries

`LTracked` is the tracked trie with list keys.  This file is proof infrastructure: it proves that
the model of `src/trie_subsets.rs` refines the functions defined here.
-/

set_option exponentiation.threshold 600

namespace EthTrie

open Nibbles Spec

/-- Tracked tries with list keys. -/
inductive LTracked where
  | empty (b : Bool)
  | hash (h : H256) (b : Bool)
  | branch (cs : Fin 16 → LTracked) (v : Bytes) (b : Bool)
  | ext (n : Key) (c : LTracked) (b : Bool)
  | leaf (n : Key) (v : Bytes) (b : Bool)

namespace LTracked

/-- The underlying trie. -/
def node : LTracked → LNode
  | .empty _ => .empty
  | .hash h _ => .hash h
  | .branch cs v _ => .branch (fun i => (cs i).node) v
  | .ext n c _ => .ext n c.node
  | .leaf n v _ => .leaf n v

/-- The flag of the root. -/
def touched : LTracked → Bool
  | .empty b => b
  | .hash _ b => b
  | .branch _ _ b => b
  | .ext _ _ b => b
  | .leaf _ _ b => b

/-- Set the flag of the root. -/
def setTouched (b : Bool) : LTracked → LTracked
  | .empty _ => .empty b
  | .hash h _ => .hash h b
  | .branch cs v _ => .branch cs v b
  | .ext n c _ => .ext n c b
  | .leaf n v _ => .leaf n v b

/-- All flags unset. -/
def new : LNode → LTracked
  | .empty => .empty false
  | .hash h => .hash h false
  | .branch cs v => .branch (fun i => new (cs i)) v false
  | .ext n c => .ext n (new c) false
  | .leaf n v => .leaf n v false

theorem node_new (l : LNode) : (new l).node = l := by
  induction l with
  | empty => rfl
  | hash => rfl
  | leaf => rfl
  | ext n c ih => simp only [new, node, ih]
  | branch cs v ih => simp only [new, node, ih]

/-- Which part of the key an extension passes on to its child. -/
def extRest (P : Profile) (n k : Key) : R (Option Key) :=
  if n.length ≤ k.length then
    if n <+: k then .ok (some (k.drop n.length)) else .ok none
  else if P.overflowChecks then .error .overflow
  else if n = List.replicate n.length 0 then .ok (some []) else .ok none

/-- Marking. -/
def mark (P : Profile) : LTracked → Key → R (Except Key LTracked)
  | .empty _, _ => .ok (.ok (.empty true))
  | .hash h _, k => .ok (match k with
    | [] => .ok (.hash h true)
    | _ :: _ => .error k)
  | .branch cs v _, k => match k with
    | [] => .ok (.ok (.branch cs v true))
    | d :: k' => do
      match ← mark P (cs d) k' with
      | .error e => return .error e
      | .ok c => return .ok (.branch (upd cs d c) v true)
  | .ext n c _, k => do
    match ← extRest P n k with
    | none => return .ok (.ext n c true)
    | some k' => do
      match ← mark P c k' with
      | .error e => return .error e
      | .ok c' => return .ok (.ext n c' true)
  | .leaf n v _, _ => .ok (.ok (.leaf n v true))

/-- Marking for several keys. -/
def markAll (P : Profile) (t : LTracked) : List Key → R (Except Key LTracked)
  | [] => .ok (.ok t)
  | k :: ks => do
    match ← mark P t k with
    | .error e => return .error e
    | .ok t' => markAll P t' ks

/-- Resetting. -/
def reset : LTracked → LTracked
  | .branch cs v b => .branch (fun i => (cs i).setTouched false) v b
  | .ext n c b => .ext n (c.setTouched false) b
  | .empty _ => .empty false
  | .hash h _ => .hash h false
  | .leaf n v _ => .leaf n v false

/-- The hash that replaces a node. -/
def away (kec : Bytes → H256) (t : LTracked) : Option H256 :=
  if t.touched then none
  else match t.node.enc kec with
    | .hashed h => some h
    | .raw _ => none

/-- The trie made from a tracked trie. -/
def subset (kec : Bytes → H256) : LTracked → LNode
  | .empty _ => .empty
  | .hash h _ => .hash h
  | .branch cs v b => match away kec (.branch cs v b) with
    | some h => .hash h
    | none => .branch (fun i => subset kec (cs i)) v
  | .ext n c b => match away kec (.ext n c b) with
    | some h => .hash h
    | none => .ext n (subset kec c)
  | .leaf n v b => match away kec (.leaf n v b) with
    | some h => .hash h
    | none => .leaf n v

theorem mark_node (P : Profile) : ∀ (t : LTracked) (k : Key) (t' : LTracked),
    t.mark P k = .ok (.ok t') → t'.node = t.node := by
  intro t
  induction t with
  | empty b => intro k t' h; simp [mark] at h; subst h; rfl
  | hash hh b => intro k t' h; cases k <;> simp [mark] at h; subst h; rfl
  | leaf n v b => intro k t' h; simp [mark] at h; subst h; rfl
  | branch cs v b ih =>
    intro k t' h
    cases k with
    | nil => simp [mark] at h; subst h; rfl
    | cons d k =>
      simp only [mark] at h
      cases hm : (cs d).mark P k with
      | error e => simp [hm] at h
      | ok r =>
        cases r with
        | error e => simp [hm] at h
        | ok c =>
          simp [hm] at h
          subst h
          have := ih d k c hm
          simp only [node, LNode.branch.injEq, and_true]
          funext i
          by_cases e : i = d
          · subst e; simp [this]
          · simp [upd_other _ _ e]
  | ext n c b ih =>
    intro k t' h
    simp only [mark] at h
    cases hr : extRest P n k with
    | error e => simp [hr] at h
    | ok o =>
      cases o with
      | none => simp [hr] at h; subst h; rfl
      | some k' =>
        simp only [hr, R_bind_ok] at h
        cases hm : c.mark P k' with
        | error e => simp [hm] at h
        | ok r =>
          cases r with
          | error e => simp [hm] at h
          | ok c' =>
            simp [hm] at h
            subst h
            simp only [node, ih k' c' hm]

theorem markAll_node (P : Profile) : ∀ (ks : List Key) (t t' : LTracked),
    t.markAll P ks = .ok (.ok t') → t'.node = t.node := by
  intro ks
  induction ks with
  | nil => intro t t' h; simp [markAll] at h; rw [h]
  | cons k ks ih =>
    intro t t' h
    simp only [markAll] at h
    cases hm : t.mark P k with
    | error e => simp [hm] at h
    | ok r =>
      cases r with
      | error e => simp [hm] at h
      | ok c =>
        simp only [hm, R_bind_ok] at h
        rw [ih c t' h, mark_node P t k c hm]

theorem setTouched_node (t : LTracked) (b : Bool) : (t.setTouched b).node = t.node := by
  cases t <;> rfl

theorem reset_node (t : LTracked) : t.reset.node = t.node := by
  cases t <;> simp only [reset, node, setTouched_node]

/-- A marked trie is touched at its root. -/
theorem mark_touched (P : Profile) {t t' : LTracked} {k : Key} (h : t.mark P k = .ok (.ok t')) :
    t'.touched = true := by
  cases t with
  | empty b => simp [mark] at h; subst h; rfl
  | hash hh b => cases k <;> simp [mark] at h; subst h; rfl
  | leaf n v b => simp [mark] at h; subst h; rfl
  | branch cs v b =>
    cases k with
    | nil => simp [mark] at h; subst h; rfl
    | cons d k =>
      simp only [mark] at h
      cases hm : (cs d).mark P k with
      | error e => simp [hm] at h
      | ok r => cases r <;> simp [hm] at h; subst h; rfl
  | ext n c b =>
    simp only [mark] at h
    cases hr : extRest P n k with
    | error e => simp [hr] at h
    | ok o =>
      cases o with
      | none => simp [hr] at h; subst h; rfl
      | some k' =>
        simp only [hr, R_bind_ok] at h
        cases hm : c.mark P k' with
        | error e => simp [hm] at h
        | ok r => cases r <;> simp [hm] at h; subst h; rfl

theorem markAll_touched (P : Profile) : ∀ (ks : List Key) (t t' : LTracked),
    t.markAll P ks = .ok (.ok t') → (ks ≠ [] ∨ t.touched = true) → t'.touched = true := by
  intro ks
  induction ks with
  | nil => intro t t' h ht; simp [markAll] at h; rw [← h]; simpa using ht
  | cons k ks ih =>
    intro t t' h ht
    simp only [markAll] at h
    cases hm : t.mark P k with
    | error e => simp [hm] at h
    | ok r =>
      cases r with
      | error e => simp [hm] at h
      | ok c =>
        simp only [hm, R_bind_ok] at h
        exact ih c t' h (.inr (mark_touched P hm))

end LTracked

section
variable (kec : Bytes → H256) {α S : Type} [K : TrieKind α S] [L : KindLaws kec α S] {P : Profile}

/-- A tracked trie represents one with list keys. -/
inductive RepT (w : L.W) : Tracked α → LTracked → Prop
  | empty (a : α) (b : Bool) : RepT w (.empty (.empty a) b) (.empty b)
  | hash (a : α) (h : H256) (b : Bool) : RepT w (.hash (.hash a h) b) (.hash h b)
  | branch (a : α) (cs : Fin 16 → Tracked α) (lcs : Fin 16 → LTracked) (v : Bytes) (b : Bool)
      (ucs : Fin 16 → Trie α) (hu : ∀ i, (cs i).u = ucs i) (h : ∀ i, RepT w (cs i) (lcs i))
      (ho : ∀ i, L.slot w (ucs i).ann (some (lcs i).node)) :
      RepT w (.branch (.branch a ucs v) b cs) (.branch lcs v b)
  | ext (a : α) (k : Key) (c : Tracked α) (lc : LTracked) (b : Bool) (hk : k.length ≤ 128)
      (h : RepT w c lc) (ho : L.slot w c.u.ann (some lc.node)) :
      RepT w (.ext (.ext a (ofList k) c.u) b c) (.ext k lc b)
  | leaf (a : α) (k : Key) (v : Bytes) (b : Bool) (hk : k.length ≤ 128) :
      RepT w (.leaf (.leaf a (ofList k) v) b) (.leaf k v b)

variable {kec}

theorem RepT.omono {w w' : L.W} (hle : L.ole w w') {t : Tracked α} {l : LTracked}
    (h : RepT kec w t l) : RepT kec w' t l := by
  induction h with
  | empty a b => exact .empty a b
  | hash a h b => exact .hash a h b
  | branch a cs lcs v b ucs hu h ho ih =>
    exact .branch a cs lcs v b ucs hu ih fun i => L.slot_mono hle (ho i)
  | ext a k c lc b hk h ho ih => exact .ext a k c lc b hk ih (L.slot_mono hle ho)
  | leaf a k v b hk => exact .leaf a k v b hk

theorem RepT.repN {w : L.W} {t : Tracked α} {l : LTracked} (h : RepT kec w t l) :
    RepN kec w t.u l.node := by
  induction h with
  | empty a b => exact .empty a
  | hash a h b => exact .hash a h
  | branch a cs lcs v b ucs hu h ho ih =>
    exact .branch a ucs _ v (fun i => hu i ▸ ih i) ho
  | ext a k c lc b hk h ho ih => exact .ext a k _ _ hk ih ho
  | leaf a k v b hk => exact .leaf a k v hk

theorem RepT.touched {w : L.W} {t : Tracked α} {l : LTracked} (h : RepT kec w t l) :
    t.touched = l.touched := by cases h <;> rfl

theorem RepT.setTouched {w : L.W} {t : Tracked α} {l : LTracked} (h : RepT kec w t l) (b : Bool) :
    RepT kec w (t.setTouched b) (l.setTouched b) := by
  cases h with
  | empty a b' => exact .empty a b
  | hash a h b' => exact .hash a h b
  | branch a cs lcs v b' ucs hu h ho => exact .branch a cs lcs v b ucs hu h ho
  | ext a k c lc b' hk h ho => exact .ext a k c lc b hk h ho
  | leaf a k v b' hk => exact .leaf a k v b hk

theorem u_setTouched (t : Tracked α) (b : Bool) : (t.setTouched b).u = t.u := by cases t <;> rfl

theorem RepT.reset {w : L.W} {t : Tracked α} {l : LTracked} (h : RepT kec w t l) :
    RepT kec w (resetTracked t) l.reset := by
  cases h with
  | empty a b' => exact .empty a false
  | hash a h b' => exact .hash a h false
  | branch a cs lcs v b' ucs hu h ho =>
    refine .branch a _ _ v b' ucs (fun i => ?_) (fun i => (h i).setTouched false) (fun i => ?_)
    · rw [u_setTouched]; exact hu i
    · rw [LTracked.setTouched_node]; exact ho i
  | ext a k c lc b' hk h ho =>
    have := RepT.ext (kec := kec) a k (c.setTouched false) (lc.setTouched false) b' hk
      (h.setTouched false) (by rw [u_setTouched, LTracked.setTouched_node]; exact ho)
    rw [u_setTouched] at this
    exact this
  | leaf a k v b' hk => exact .leaf a k v false hk

theorem u_new (t : Trie α) : (Tracked.new t).u = t := by cases t <;> rfl

theorem RepN.tracked {w : L.W} {t : Trie α} {l : LNode} (h : RepN kec w t l) :
    RepT kec w (Tracked.new t) (LTracked.new l) := by
  induction h with
  | empty a => exact .empty a false
  | hash a h => exact .hash a h false
  | branch a cs lcs v h ho ih =>
    exact .branch a _ _ v false cs (fun i => u_new _) ih (fun i => by
      rw [LTracked.node_new]; exact ho i)
  | ext a k c lc hk h ho ih =>
    have := RepT.ext (kec := kec) a k _ _ false hk ih (by rw [u_new, LTracked.node_new]; exact ho)
    rw [u_new] at this
    exact this
  | leaf a k v hk => exact .leaf a k v false hk

/-- Relation between the results of marking. -/
def MarkRel (w : L.W) : Except SubsetError (Tracked α) → Except Key LTracked → Prop
  | .error e, .error k => e = .unexpectedKey (ofList k) ∧ k.length ≤ 127
  | .ok t, .ok l => RepT kec w t l
  | _, _ => False

/-- The model computation does what the list computation does. -/
def RRel {A B : Type} (Q : A → B → Prop) : R A → R B → Prop
  | .error e, .error e' => e = e'
  | .ok a, .ok b => Q a b
  | _, _ => False

theorem RRel.err {A B : Type} {Q : A → B → Prop} (e : Panic) : RRel Q (.error e) (.error e) := rfl

theorem RRel.bind {A B C D : Type} {Q : A → B → Prop} {Q' : C → D → Prop} {x : R A} {y : R B}
    {f : A → R C} {g : B → R D} (h : RRel Q x y) (hf : ∀ a b, Q a b → RRel Q' (f a) (g b)) :
    RRel Q' (x >>= f) (y >>= g) := by
  cases x <;> cases y
  · exact h
  · exact h.elim
  · exact h.elim
  · exact hf _ _ h

theorem extRest_eq {n k : Key} (hn : n.length ≤ 127) (hk : k.length ≤ 127) :
    (∃ e, (ofList k).popNibblesFront P (ofList n).count = .error e ∧
      LTracked.extRest P n k = .error e) ∨
    (∃ r rest, (ofList k).popNibblesFront P (ofList n).count = .ok (r, rest) ∧
      r.identicalUpToSmallest P (ofList n) = .ok false ∧ LTracked.extRest P n k = .ok none) ∨
    (∃ r k', (ofList k).popNibblesFront P (ofList n).count = .ok (r, ofList k') ∧
      r.identicalUpToSmallest P (ofList n) = .ok true ∧
      LTracked.extRest P n k = .ok (some k')) := by
  unfold LTracked.extRest
  rw [ofList_count]
  by_cases hl : n.length ≤ k.length
  · rw [if_pos hl, popNibblesFront_ok P (by omega) hl (by omega)]
    by_cases hp : n <+: k
    · rw [if_pos hp]
      have : List.take n.length k = n := by
        obtain ⟨r, rfl⟩ := hp; simp
      refine .inr (.inr ⟨_, _, rfl, ?_, rfl⟩)
      rw [identicalUpToSmallest_ok P (by simp; omega) (by omega)]
      simp only [this, List.prefix_refl, or_self, decide_true]
    · rw [if_neg hp]
      have : ¬ (List.take n.length k <+: n ∨ n <+: List.take n.length k) := by
        rintro (h | h)
        · have := h.eq_of_length (by simp; omega)
          exact hp (this ▸ List.take_prefix _ _)
        · exact hp (h.trans (List.take_prefix _ _))
      refine .inr (.inl ⟨_, _, rfl, ?_, rfl⟩)
      rw [identicalUpToSmallest_ok P (by simp; omega) (by omega)]
      simp only [this, decide_false]
  · rw [if_neg hl]
    cases hP : P.overflowChecks with
    | true =>
      rw [popNibblesFront_panic P (by rw [ofList_count]; omega) hP]
      exact .inl ⟨_, rfl, rfl⟩
    | false =>
      rw [popNibblesFront_release (by omega) hn hP]
      simp only [Bool.false_eq_true, if_false]
      by_cases hp : n = List.replicate n.length 0
      · rw [if_pos hp]
        have : (List.replicate n.length 0 <+: n ∨ n <+: List.replicate n.length 0) :=
          .inr (by rw [← hp]; exact List.prefix_refl _)
        refine .inr (.inr ⟨_, _, rfl, ?_, rfl⟩)
        rw [identicalUpToSmallest_ok P (by simp; omega) (by omega)]
        simp only [this, decide_true]
      · rw [if_neg hp]
        have : ¬ (List.replicate n.length 0 <+: n ∨ n <+: List.replicate n.length 0) := by
          rintro (h | h)
          · exact hp (h.eq_of_length (by simp)).symm
          · exact hp (h.eq_of_length (by simp))
        refine .inr (.inl ⟨_, _, rfl, ?_, rfl⟩)
        rw [identicalUpToSmallest_ok P (by simp; omega) (by omega)]
        simp only [this, decide_false]

theorem LTracked.extRest_length {n k k' : Key} (h : extRest P n k = .ok (some k')) :
    k'.length ≤ k.length := by
  unfold extRest at h
  split at h
  · split at h <;> simp at h
    subst h; simp
  · split at h
    · simp at h
    · split at h <;> simp at h
      subst h; simp

theorem mark_sim {w : L.W} : ∀ (l : LTracked) (t : Tracked α) (k : Key), RepT kec w t l →
    l.node.Bound 127 → k.length ≤ 127 → RRel (MarkRel w) (mark P t (ofList k)) (l.mark P k) := by
  intro l
  induction l with
  | empty b => intro t k ht _ _; cases ht; exact .empty _ _
  | hash h b =>
    intro t k ht _ hk
    cases ht
    cases k with
    | nil => exact RepT.hash _ _ _
    | cons d k =>
      simp only [mark, isEmpty_ofList, List.isEmpty_cons]
      exact ⟨rfl, hk⟩
  | leaf n v b =>
    intro t k ht _ _
    cases ht with
    | leaf _ _ _ _ hn => exact RepT.leaf _ _ _ _ hn
  | branch lcs v b ih =>
    intro t k ht hb hk
    cases ht with
    | branch a cs _ _ _ ucs hu h ho =>
    cases k with
    | nil => exact RepT.branch _ _ _ _ _ _ hu h ho
    | cons d k =>
      simp only [mark, isEmpty_ofList, List.isEmpty_cons, Bool.false_eq_true, if_false]
      rw [popNextFront_ok P (by omega), R_bind_ok]
      simp only [idx16_val, R_bind_ok, LTracked.mark]
      have hd := ih d (cs d) k (h d) ((hb.2 d).mono (by omega)) (by simp at hk; omega)
      have hnode := LTracked.mark_node P (lcs d) k
      revert hd hnode
      have hud := hu d
      generalize (lcs d).mark P k = y
      generalize hx : mark P (cs d) (ofList k) = x
      intro hd hnode
      cases x with
      | error e => cases y with
        | error e' => exact hd
        | ok y => exact hd.elim
      | ok x => cases y with
        | error e' => exact hd.elim
        | ok y =>
          cases x with
          | error e => cases y with
            | error e' => exact hd
            | ok y => exact hd.elim
          | ok x => cases y with
            | error e' => exact hd.elim
            | ok y =>
              have hxy : RepT kec w x y := hd
              have hux : x.u = (cs d).u := mark_u hx
              refine RepT.branch _ _ _ _ _ ucs (fun i => ?_) (fun i => ?_) (fun i => ?_)
              · by_cases e : i = d
                · subst e; simp [hux, hud]
                · simp [upd_other _ _ e, hu]
              · by_cases e : i = d
                · subst e; simpa using hxy
                · simp only [upd_other _ _ e]; exact h i
              · by_cases e : i = d
                · subst e; simp [hnode y rfl, ho]
                · simp only [upd_other _ _ e]; exact ho i
  | ext n lc b ih =>
    intro t k ht hb hk
    cases ht with
    | ext a _ c _ _ hn h ho =>
    have hn' : n.length ≤ 127 := hb.1
    simp only [mark, getNibblesExpected, R_bind_ok, LTracked.mark]
    rcases extRest_eq (P := P) hn' hk with ⟨e, hp, hr⟩ | ⟨r, rest, hp, hi, hr⟩ | ⟨r, k', hp, hi, hr⟩
    · rw [hp, hr]; exact rfl
    · rw [hp, hr]
      simp only [R_bind_ok, hi]
      exact RepT.ext _ _ _ _ _ hn h ho
    · rw [hp, hr]
      simp only [R_bind_ok, hi]
      have hk' := LTracked.extRest_length hr
      have hd := ih c k' h (hb.2.mono (by omega)) (by omega)
      have hnode := LTracked.mark_node P lc k'
      revert hd hnode
      generalize lc.mark P k' = y
      generalize hx : mark P c (ofList k') = x
      intro hd hnode
      cases x with
      | error e => cases y with
        | error e' => exact hd
        | ok y => exact hd.elim
      | ok x => cases y with
        | error e' => exact hd.elim
        | ok y =>
          cases x with
          | error e => cases y with
            | error e' => exact hd
            | ok y => exact hd.elim
          | ok x => cases y with
            | error e' => exact hd.elim
            | ok y =>
              have hxy : RepT kec w x y := hd
              have hux : x.u = c.u := mark_u hx
              have := RepT.ext (kec := kec) a n x y true hn hxy
                (by rw [hux, hnode y rfl]; exact ho)
              rw [hux] at this
              exact this
where
  mark_u {c x : Tracked α} {k : Nibbles} (h : mark P c k = .ok (.ok x)) : x.u = c.u := by
    cases c with
    | empty u b => simp [mark] at h; subst h; rfl
    | hash u b =>
      cases hk : k.isEmpty <;> simp [mark, hk] at h
      subst h; rfl
    | leaf u b => simp [mark] at h; subst h; rfl
    | branch u b cs =>
      simp only [mark] at h
      split at h
      · simp at h; subst h; rfl
      · simp only [R_bind_eq_ok] at h
        obtain ⟨⟨nib, rest⟩, -, i, -, r, -, h⟩ := h
        cases r <;> simp at h
        subst h; rfl
    | ext u b c =>
      simp only [mark, R_bind_eq_ok] at h
      obtain ⟨n, -, ⟨r, rest⟩, -, bb, -, h⟩ := h
      cases bb
      · simp at h; subst h; rfl
      · simp only [R_bind_eq_ok] at h
        obtain ⟨r, -, h⟩ := h
        cases r <;> simp at h
        subst h; rfl

theorem markAll_sim {w : L.W} : ∀ (ks : List Key) (l : LTracked) (t : Tracked α), RepT kec w t l →
    l.node.Bound 127 → (∀ k ∈ ks, k.length ≤ 127) →
    RRel (MarkRel w) (markAll P t (ks.map ofList)) (l.markAll P ks) := by
  intro ks
  induction ks with
  | nil => intro l t ht _ _; exact ht
  | cons k ks ih =>
    intro l t ht hb hk
    simp only [List.map_cons, markAll, LTracked.markAll]
    have hd := mark_sim (P := P) l t k ht hb (hk k List.mem_cons_self)
    have hnode := LTracked.mark_node P l k
    revert hd hnode
    generalize l.mark P k = y
    generalize mark P t (ofList k) = x
    intro hd hnode
    cases x with
    | error e => cases y with
      | error e' => exact hd
      | ok y => exact hd.elim
    | ok x => cases y with
      | error e' => exact hd.elim
      | ok y =>
        cases x with
        | error e => cases y with
          | error e' => exact hd
          | ok y => exact hd.elim
        | ok x => cases y with
          | error e' => exact hd.elim
          | ok y =>
            exact ih y x hd (by rw [hnode y rfl]; exact hb)
              (fun k' hk' => hk k' (List.mem_cons_of_mem _ hk'))

/-! ### Making the subset -/

/-- A new node: `root` says that it becomes the root of a trie of the user. -/
def NewRel (root : Bool) (w0 : L.W) (w : L.W) (t : Trie α) (l : LNode) : Prop :=
  RepN kec w t l ∧ L.slot w t.ann (if root then none else some l) ∧
    (root = true → K.cacheGet t.ann (L.st w) = none ∧
      (L.real → ∀ b o, L.slot w0 b o → t.ann ≠ b))

theorem NewRel.rep {w0 w : L.W} {t : Trie α} {l : LNode} (h : NewRel (kec := kec) false w0 w t l) :
    Rep kec w t l := ⟨h.1, h.2.1⟩

theorem NewRel.weaken {root : Bool} {w0 w1 w : L.W} {t : Trie α} {l : LNode}
    (hle : L.ole w0 w1) (h : NewRel (kec := kec) root w1 w t l) : NewRel root w0 w t l :=
  ⟨h.1, h.2.1, fun hr => ⟨(h.2.2 hr).1, fun hR b o hs =>
    (h.2.2 hr).2 hR b o (L.slot_mono hle hs)⟩⟩

theorem sim_new {w : L.W} (f : α → Trie α) (l : LNode) (root : Bool) (hf : ∀ a, (f a).ann = a)
    (hr : ∀ w' a, L.ole w w' → RepN kec w' (f a) l) :
    Sim kec w (.alloc fun a => .ret (f a)) (.ok l) (NewRel root w) := by
  intro w' hle
  obtain ⟨w'', h1, h2, h3, h4⟩ := L.alloc_ok w' (if root then none else some l)
  refine ⟨w'', h1, h2, _, rfl, hr _ _ (L.ole_trans hle (L.ole_of_le h1)), by rw [hf]; exact h3,
    fun _ => ?_⟩
  rw [hf]
  exact ⟨h4, fun hR b o hs => L.fresh hR (L.slot_mono hle hs)⟩

/-- `createSubset` after the decision not to hash the node away. -/
def createBody (P : Profile) (kec : Bytes → H256) : Tracked α → Prog α (Trie α)
  | .empty _ _ => newEmpty
  | .hash u _ => do newHash (← Prog.lift (getHashNodeHashExpected u))
  | .branch u _ cs => do
    let value ← Prog.lift (getBranchValueExpected u)
    let ts ← Prog.seq ((List.finRange 16).map fun i => createSubset P kec (cs i))
    let e ← Prog.lift (rindex ts 0)
    newBranch (fun i => ts.getD i.val e) value
  | .ext u _ c => do
    let nibbles ← Prog.lift (getNibblesExpected u)
    let t ← createSubset P kec c
    newExt nibbles t
  | .leaf u _ => do
    let (nibbles, value) ← Prog.lift (getLeafNibblesAndValueExpected u)
    newLeaf nibbles value

omit L in
theorem createSubset_eq (t : Tracked α) : (createSubset P kec t) = (do
    match ← hashAway P kec t with
    | some h => newHash h
    | none => createBody P kec t) := by
  cases t <;> simp only [createSubset, createBody] <;> rfl

/-- The subset after the decision not to hash the node away. -/
def LTracked.body (kec : Bytes → H256) : LTracked → LNode
  | .empty _ => .empty
  | .hash h _ => .hash h
  | .branch cs v _ => .branch (fun i => (cs i).subset kec) v
  | .ext n c _ => .ext n (c.subset kec)
  | .leaf n v _ => .leaf n v

theorem LTracked.subset_eq (t : LTracked) : t.subset kec = match t.away kec with
    | some h => .hash h
    | none => t.body kec := by
  cases t with
  | empty b => cases b <;> rfl
  | hash h b => cases b <;> rfl
  | branch cs v b => simp only [subset, body]
  | ext n c b => simp only [subset, body]
  | leaf n v b => rfl

theorem sim_seqR {β : Type} {f : β → Prog α (Trie α)} {g : β → LNode}
    (xs : List β) : ∀ (w : L.W),
    (∀ x ∈ xs, ∀ w', L.ole w w' → Sim kec w' (f x) (.ok (g x)) (Rep kec)) →
    Sim kec w (Prog.seq (xs.map f)) (.ok (xs.map g))
      (fun w' ts ls => List.Forall₂ (Rep kec w') ts ls) := by
  induction xs with
  | nil => intro w h; exact ⟨_, rfl, .nil⟩
  | cons x xs ih =>
    intro w h
    simp only [List.map_cons, Prog.seq]
    refine Sim.bind_ok (h x List.mem_cons_self w (ole_refl w)) ?_
    intro w1 t1 h1 hr1
    refine Sim.bind_ok (ih w1 fun y hy w' hw' =>
      h y (List.mem_cons_of_mem _ hy) w' (L.ole_trans h1 hw')) ?_
    intro w2 ts h2 hr2
    exact ⟨_, rfl, .cons (hr1.mono h2) hr2⟩

/-- Direct children. -/
inductive LTracked.Child : LTracked → LTracked → Prop
  | branch (cs : Fin 16 → LTracked) (v : Bytes) (b : Bool) (i : Fin 16) :
      Child (cs i) (.branch cs v b)
  | ext (n : Key) (c : LTracked) (b : Bool) : Child c (.ext n c b)

theorem sim_createBody {w : L.W} (root : Bool) {t : Tracked α} {l : LTracked}
    (ht : RepT kec w t l)
    (ih : ∀ l', l'.Child l → ∀ (t' : Tracked α) (w' : L.W),
      RepT kec w' t' l' → L.slot w' t'.u.ann (some l'.node) →
      Sim kec w' (createSubset P kec t') (.ok (l'.subset kec)) (Rep kec)) :
    Sim kec w (createBody P kec t) (.ok (l.body kec)) (NewRel root w) := by
  cases ht with
  | empty a b => exact sim_new (fun a => .empty a) _ root (fun _ => rfl) (fun _ _ _ => .empty _)
  | hash a h b =>
    exact Sim.lift_bind (a := h) rfl (sim_new (fun a => .hash a h) _ root (fun _ => rfl)
      (fun _ _ _ => .hash _ _))
  | leaf a k v b hk =>
    exact Sim.lift_bind (a := (ofList k, v)) rfl (sim_new (fun a => .leaf a (ofList k) v) _ root
      (fun _ => rfl) (fun _ _ _ => .leaf _ _ _ hk))
  | ext a k c lc b hk h ho =>
    refine Sim.lift_bind (a := ofList k) rfl ?_
    refine Sim.bind_ok (ih lc (.ext _ _ _) c w h ho) ?_
    intro w1 t1 h1 hr1
    refine Sim.mono (sim_new (fun a => .ext a (ofList k) t1) _ root (fun _ => rfl)
      (fun w' a hle => .ext _ _ _ _ hk (hr1.mono hle).1 (hr1.mono hle).2)) ?_
    intro w2 t2 l2 _ hn
    exact hn.weaken h1
  | branch a cs lcs v b ucs hu h ho =>
    refine Sim.lift_bind (a := v) rfl ?_
    refine Sim.bind_ok (sim_seqR (g := fun i => (lcs i).subset kec) (List.finRange 16) w ?_) ?_
    · intro i _ w' hle
      refine ih (lcs i) (.branch _ _ _ i) (cs i) w' ((h i).omono hle) ?_
      rw [hu i]
      exact L.slot_mono hle (ho i)
    · intro w1 ts h1 hr1
      have hlen : ts.length = 16 := by simpa using hr1.length_eq
      obtain ⟨t0, ts', rfl⟩ : ∃ t0 ts', ts = t0 :: ts' := by
        cases ts with
        | nil => simp at hlen
        | cons t0 ts' => exact ⟨_, _, rfl⟩
      refine Sim.lift_bind (a := t0) rfl ?_
      have hget : ∀ i : Fin 16, Rep kec w1 ((t0 :: ts').getD i.val t0) ((lcs i).subset kec) := by
        intro i
        have hi : i.val < (t0 :: ts').length := by rw [hlen]; exact i.isLt
        have := hr1.get (i := i.val) hi (by simp)
        simpa [List.getD_eq_getElem?_getD, List.getElem?_eq_getElem hi] using this
      refine Sim.mono (sim_new (fun a => .branch a (fun i => (t0 :: ts').getD i.val t0) v) _ root
        (fun _ => rfl) (fun w' a hle => .branch _ _ _ _ (fun i => ((hget i).mono hle).1)
          (fun i => ((hget i).mono hle).2))) ?_
      intro w2 t2 l2 _ hn
      exact hn.weaken h1

theorem sim_hashAway {w : L.W} {t : Tracked α} {l : LTracked} (ht : RepT kec w t l)
    (ho : L.slot w t.u.ann (some l.node) ∨ l.touched = true) :
    Sim kec w (hashAway P kec t) (.ok (l.away kec)) (fun _ x y => x = y) := by
  unfold hashAway LTracked.away
  rw [ht.touched]
  cases hto : l.touched with
  | true => exact ⟨_, rfl, rfl⟩
  | false =>
    have ho : L.slot w t.u.ann (some l.node) := by simpa [hto] using ho
    simp only [Bool.not_false, if_true, Bool.false_eq_true, if_false]
    refine Sim.bind_ok (sim_cached ho fun w' hle => sim_encode _ _ w' (ht.repN.mono hle)) ?_
    rintro w1 x h1 rfl
    cases l.node.enc kec with
    | raw b => exact ⟨_, rfl, rfl⟩
    | hashed h => exact ⟨_, rfl, rfl⟩

theorem sim_createSubset : ∀ (l : LTracked) (t : Tracked α) (w : L.W), RepT kec w t l →
    L.slot w t.u.ann (some l.node) →
    Sim kec w (createSubset P kec t) (.ok (l.subset kec)) (Rep kec) := by
  have main : ∀ (l : LTracked) (t : Tracked α) (w : L.W), RepT kec w t l →
      L.slot w t.u.ann (some l.node) →
      (∀ l', l'.Child l → ∀ (t' : Tracked α) (w' : L.W),
        RepT kec w' t' l' → L.slot w' t'.u.ann (some l'.node) →
        Sim kec w' (createSubset P kec t') (.ok (l'.subset kec)) (Rep kec)) →
      Sim kec w (createSubset P kec t) (.ok (l.subset kec)) (Rep kec) := by
    intro l t w ht ho ih
    rw [createSubset_eq, LTracked.subset_eq]
    refine Sim.bind_ok (sim_hashAway ht (.inl ho)) ?_
    rintro w1 _ h1 rfl
    cases l.away kec with
    | some h => exact sim_newHash w1 h
    | none =>
      exact (sim_createBody false (ht.omono h1) ih).mono fun _ _ _ _ h => h.rep
  intro l
  induction l with
  | empty b => intro t w ht ho; exact main _ t w ht ho (fun l' hc => nomatch hc)
  | hash h b => intro t w ht ho; exact main _ t w ht ho (fun l' hc => nomatch hc)
  | leaf n v b => intro t w ht ho; exact main _ t w ht ho (fun l' hc => nomatch hc)
  | ext n c b ih =>
    intro t w ht ho
    exact main _ t w ht ho (fun l' hc => by cases hc; exact ih)
  | branch cs v b ih =>
    intro t w ht ho
    exact main _ t w ht ho (fun l' hc => by cases hc; exact ih _)

/-- At a touched root: the result is a new root. -/
theorem sim_createSubset_root {l : LTracked} {t : Tracked α} {w : L.W} (ht : RepT kec w t l)
    (hto : l.touched = true) :
    Sim kec w (createSubset P kec t) (.ok (l.subset kec)) (NewRel true w) := by
  rw [createSubset_eq, LTracked.subset_eq]
  refine Sim.bind_ok (sim_hashAway ht (.inr hto)) ?_
  rintro w1 _ h1 rfl
  have : l.away kec = none := by simp [LTracked.away, hto]
  rw [this]
  refine (sim_createBody true (ht.omono h1) ?_).mono
    fun _ _ _ _ h => h.weaken h1
  intro l' _ t' w' ht' ho'
  exact sim_createSubset l' t' w' ht' ho'

omit L in
theorem hashAway_run (t : Tracked α) (ht : t.touched = false) (s : S) :
    (hashAway P kec t).run s = match (hashIntern P kec t.u).run s with
      | .error e => .error e
      | .ok (.hashed h, s') => .ok (some h, s')
      | .ok (.raw _, s') => .ok (none, s') := by
  simp only [hashAway, ht, Bool.not_false, if_true, Prog.bind_run]
  split
  · rename_i h; simp [h]
  · rename_i x s' h
    cases x <;> simp [h]

omit L in
theorem hashIntern_run (t : Trie α) (s : S) :
    (hashIntern P kec t).run s = match K.cacheGet t.ann s with
      | some h => .ok (.hashed h, s)
      | none => match (encodeNode P kec t).run s with
        | .error e => .error e
        | .ok (.hashed h, s') => .ok (.hashed h, K.cacheSet t.ann (some h) s')
        | .ok (.raw b, s') => .ok (.raw b, s') := by
  simp only [hashIntern, cached, Prog.run]
  cases K.cacheGet t.ann s with
  | some h => rfl
  | none =>
    simp only [Prog.run_bind, M.bind_run]
    cases (encodeNode P kec t).run s with
    | error e => rfl
    | ok r =>
      obtain ⟨x, s'⟩ := r
      cases x <;> rfl

/-- At an untouched root: a filled cell is used as it is, an empty one is filled if the node is hashed
away. -/
theorem createSubset_untouched {l : LTracked} {t : Tracked α} {w : L.W} (ht : RepT kec w t l)
    (ho : L.slot w t.u.ann none) (hto : l.touched = false) :
    ∃ t' w1 w2 w', (createSubset P kec t).run (L.st w) = .ok (t', L.st w') ∧
      L.le w w1 ∧ L.ole w1 w2 ∧
      L.le w2 w' ∧ (match K.cacheGet t.u.ann (L.st w) with
        | some h => L.st w2 = L.st w1 ∧ NewRel true w w' t' (.hash h)
        | none => NewRel true w w' t' (l.subset kec) ∧ match l.away kec with
          | some h => L.st w2 = K.cacheSet t.u.ann (some h) (L.st w1)
          | none => L.st w2 = L.st w1) := by
  have henc := (sim_encode (P := P) _ _ w ht.repN).run
  rw [createSubset_eq, LTracked.subset_eq]
  simp only [Prog.bind_run, hashAway_run _ (ht.touched.trans hto), LTracked.away, hto,
    Bool.false_eq_true, if_false, hashIntern_run]
  cases hg : K.cacheGet t.u.ann (L.st w) with
  | some h =>
    obtain ⟨t', w', h1, h2, h3⟩ := (sim_new (kec := kec) (w := w) (fun a => .hash a h) (.hash h) true
      (fun _ => rfl) (fun _ _ _ => .hash _ _)).run
    exact ⟨t', w, w, w', h1, L.le_refl w, L.ole_of_le (L.le_refl w), h2, rfl, h3⟩
  | none =>
    obtain ⟨x, w1, h1, h2, rfl⟩ := henc
    simp only [h1]
    cases he : l.node.enc kec with
    | hashed h =>
      obtain ⟨w2, h3, h4⟩ := L.set_root (some h) (L.slot_mono (L.ole_of_le h2) ho)
      simp only
      rw [← h4]
      obtain ⟨t', w', h5, h6, h7⟩ := (sim_new (kec := kec) (w := w2) (fun a => .hash a h) (.hash h)
        true (fun _ => rfl) (fun _ _ _ => .hash _ _)).run
      exact ⟨t', w1, w2, w', h5, h2, h3, h6, h7.weaken (L.ole_trans (L.ole_of_le h2) h3), h4⟩
    | raw b =>
      simp only
      obtain ⟨t', w', h5, h6, h7⟩ := (sim_createBody (P := P) true (ht.omono (L.ole_of_le h2))
        (fun l' _ t' w' ht' ho' => sim_createSubset l' t' w' ht' ho')).run
      exact ⟨t', w1, w1, w', h5, h2, L.ole_of_le (L.le_refl w1), h6,
        h7.weaken (L.ole_of_le h2), rfl⟩

end
end EthTrie
