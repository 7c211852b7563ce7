import Verif.Subset.Sim
import Verif.Trie.ExtOK
import Verif.Trie.ItemsAbs
import Verif.Spec.Elide

/-!
# Partial views: some sub-tries replaced by their hashes

Subsets are partial views in which the visited nodes are kept.
-/

namespace EthTrie

open Spec KMap

namespace LNode

/-- `View kec p t`: `p` is `t` with some sub-tries replaced by their hashes. -/
inductive View (kec : Bytes → H256) : LNode → LNode → Prop
  | away (l : LNode) (h : H256) (he : l.enc kec = .hashed h) : View kec (.hash h) l
  | empty : View kec .empty .empty
  | branch (ps cs : Fin 16 → LNode) (v : Bytes) (h : ∀ i, View kec (ps i) (cs i)) :
      View kec (.branch ps v) (.branch cs v)
  | ext (n : Key) (p c : LNode) (h : View kec p c) : View kec (.ext n p) (.ext n c)
  | leaf (n : Key) (v : Bytes) : View kec (.leaf n v) (.leaf n v)

theorem View.refl (kec : Bytes → H256) (l : LNode) : View kec l l := by
  induction l with
  | empty => exact .empty
  | hash h => exact .away _ _ rfl
  | branch cs v ih => exact .branch _ _ _ ih
  | ext n c ih => exact .ext _ _ _ ih
  | leaf n v => exact .leaf _ _

theorem View.enc {kec : Bytes → H256} {p t : LNode} (h : View kec p t) :
    p.enc kec = t.enc kec := by
  induction h with
  | away l h he => rw [he]; rfl
  | empty => rfl
  | branch ps cs v h ih => simp only [LNode.enc, ih]
  | ext n p c h ih => simp only [LNode.enc, ih]
  | leaf n v => rfl

theorem View.rootHash {kec : Bytes → H256} {p t : LNode} (h : View kec p t) :
    p.rootHash kec = t.rootHash kec := by rw [LNode.rootHash, h.enc]; rfl

theorem View.trans {kec : Bytes → H256} {p q t : LNode} (h : View kec p q) (h' : View kec q t) :
    View kec p t := by
  induction h generalizing t with
  | away l x he => exact .away _ _ (by rw [← h'.enc, he])
  | empty => exact h'
  | branch ps cs v h ih =>
    cases h' with
    | branch _ ds _ h' => exact .branch _ _ _ fun i => ih i (h' i)
  | ext n p c h ih =>
    cases h' with
    | ext _ _ d h' => exact .ext _ _ _ (ih h')
  | leaf n v => exact h'

theorem View.isBH {kec : Bytes → H256} {p t : LNode} (h : View kec p t) (ht : t.isBH) : p.isBH := by
  cases h with
  | away => trivial
  | empty => exact ht
  | branch => trivial
  | ext => exact ht
  | leaf => exact ht

theorem View.empty_iff {kec : Bytes → H256} {p t : LNode} (h : View kec p t) :
    p = .empty ↔ t = .empty := by
  cases h with
  | away l h he => constructor
                   · intro h; simp at h
                   · rintro rfl; simp [LNode.enc] at he
  | empty => simp
  | branch => simp
  | ext => simp
  | leaf => simp

theorem View.canon {kec : Bytes → H256} {p t : LNode} (h : View kec p t) (ht : t.Canon) :
    p.Canon := by
  induction h with
  | away => trivial
  | empty => trivial
  | branch ps cs v h ih =>
    refine ⟨fun i => ih i (ht.1 i), ?_⟩
    rcases ht.2 with ⟨i, j, hij, hi, hj⟩ | ⟨hv, i, hi⟩
    · exact .inl ⟨i, j, hij, fun e => hi ((h i).empty_iff.1 e), fun e => hj ((h j).empty_iff.1 e)⟩
    · exact .inr ⟨hv, i, fun e => hi ((h i).empty_iff.1 e)⟩
  | ext n p c h ih => exact ⟨ht.1, h.isBH ht.2.1, ih ht.2.2⟩
  | leaf => trivial

/-- Nodes with a hash as encoding, other than hash nodes, have large encodings. -/
theorem enc_hashed {kec : Bytes → H256} {l : LNode} {h : H256} (he : l.enc kec = .hashed h)
    (hl : l.Canon) {J : Entries} (hJ : Lists J (absL l)) :
    l = .hash h ∨ (32 ≤ (node kec J).length ∧ h = kec (node kec J)) := by
  by_cases h1 : ∃ x, l = .hash x
  · obtain ⟨x, rfl⟩ := h1
    simp only [LNode.enc, EncodedNode.hashed.injEq] at he
    left; rw [he]
  · right
    have hne : l ≠ .empty := by rintro rfl; simp [LNode.enc] at he
    rw [(enc_spec kec l J hl hJ).2.2 hne fun x hx => h1 ⟨x, hx⟩, hashIfLarge] at he
    split at he
    · cases he
    · rename_i hd
      cases he
      exact ⟨by simpa using hd, rfl⟩

theorem View.keep {kec : Bytes → H256} {p t : LNode} (h : View kec p t) (ht : t.Canon) :
    ∀ k v, absL p k = some v → absL t k = some v ∨
      ∃ h J, v = .hash h ∧ Lists J ((absL t).sub k) ∧ 32 ≤ (node kec J).length ∧
        h = kec (node kec J) := by
  induction h with
  | away l x he =>
    intro k v hk
    rw [absL_hash] at hk
    split at hk
    · rename_i h0
      subst h0
      cases hk
      rcases enc_hashed he ht (items_lists l) with rfl | ⟨h1, h2⟩
      · left; simp [absL_hash]
      · exact .inr ⟨x, _, rfl, items_lists l, h1, h2⟩
    · simp at hk
  | empty => intro k v hk; simp at hk
  | branch ps cs w h ih =>
    intro k v hk
    cases k with
    | nil => exact .inl hk
    | cons d k => exact ih d (ht.1 d) k v hk
  | ext n p c h ih =>
    intro k v hk
    obtain ⟨r, rfl, _⟩ := absL_ext_some (n := n) (c := p) (q := k) (by simp [hk])
    rw [absL_ext_append] at hk ⊢
    rcases ih ht.2.2 r v hk with h1 | ⟨x, J, h1, h2, h3⟩
    · exact .inl h1
    · refine .inr ⟨x, J, h1, ?_, h3⟩
      have : (absL (.ext n c)).sub (n ++ r) = (absL c).sub r := by
        funext q; simp [KMap.sub]
      rw [this]; exact h2
  | leaf n w => intro k v hk; exact .inl hk

theorem View.cover {kec : Bytes → H256} {p t : LNode} (h : View kec p t) :
    ∀ k v, absL t k = some v → absL p k = some v ∨
      ∃ q h, q <+: k ∧ absL p q = some (.hash h) := by
  induction h with
  | away l x he => intro k v _; exact .inr ⟨[], x, List.nil_prefix, by simp [absL_hash]⟩
  | empty => intro k v hk; simp at hk
  | branch ps cs w h ih =>
    intro k v hk
    cases k with
    | nil => exact .inl hk
    | cons d k =>
      rcases ih d k v hk with h1 | ⟨q, x, ⟨s, hs⟩, h2⟩
      · exact .inl h1
      · exact .inr ⟨d :: q, x, ⟨s, by simp [hs]⟩, h2⟩
  | ext n p c h ih =>
    intro k v hk
    obtain ⟨r, rfl, _⟩ := absL_ext_some (n := n) (c := c) (q := k) (by simp [hk])
    rw [absL_ext_append] at hk ⊢
    rcases ih r v hk with h1 | ⟨q, x, ⟨s, hs⟩, h2⟩
    · exact .inl h1
    · exact .inr ⟨n ++ q, x, ⟨s, by simp [hs]⟩, by simpa using h2⟩
  | leaf n w => intro k v hk; exact .inl hk

theorem View.elided {kec : Bytes → H256} {p t : LNode} (h : View kec p t) (ht : t.Canon) :
    Elided kec (absL t) (absL p) where
  keep := h.keep ht
  cover := h.cover
  root := fun J J' hJ hJ' => by
    rw [← rootHash_spec kec ht hJ, ← rootHash_spec kec (h.canon ht) hJ', h.rootHash]

end LNode

namespace LTracked

theorem subset_view {kec : Bytes → H256} : ∀ (t : LTracked), LNode.View kec (t.subset kec) t.node := by
  have aw : ∀ {t : LTracked} {h : H256}, away kec t = some h → LNode.View kec (.hash h) t.node := by
    intro t h ha
    simp only [away] at ha
    split at ha
    · simp at ha
    · split at ha
      · rename_i he; cases ha; exact .away _ _ he
      · simp at ha
  intro t
  induction t with
  | empty b => exact .empty
  | hash h b => exact .away _ _ rfl
  | branch cs v b ih =>
    simp only [subset]
    split
    · rename_i h; exact aw h
    · exact .branch _ _ _ ih
  | ext n c b ih =>
    simp only [subset]
    split
    · rename_i h; exact aw h
    · exact .ext _ _ _ ih
  | leaf n v b =>
    simp only [subset]
    split
    · rename_i h; exact aw h
    · exact .leaf _ _

/-- The nodes visited for the key are flagged. -/
def Touch (P : Profile) : LTracked → Key → Prop
  | .empty _, _ => True
  | .hash _ _, _ => True
  | .leaf _ _ b, _ => b = true
  | .branch cs _ b, k => b = true ∧ ∀ d k', k = d :: k' → Touch P (cs d) k'
  | .ext n c b, k => b = true ∧ match extRest P n k with
    | .ok (some k') => Touch P c k'
    | _ => True

theorem mark_touch (P : Profile) : ∀ {t t' : LTracked} {k : Key}, t.mark P k = .ok (.ok t') →
    t'.Touch P k := by
  intro t
  induction t with
  | empty b => intro t' k h; simp [mark] at h; subst h; trivial
  | hash hh b => intro t' k h; cases k <;> simp [mark] at h; subst h; trivial
  | leaf n v b => intro t' k h; simp [mark] at h; subst h; rfl
  | branch cs v b ih =>
    intro t' k h
    cases k with
    | nil => simp [mark] at h; subst h; exact ⟨rfl, by simp⟩
    | cons d k =>
      simp only [mark] at h
      cases hm : (cs d).mark P k with
      | error e => simp [hm] at h
      | ok r =>
        cases r with
        | error e => simp [hm] at h
        | ok c =>
          simp [hm] at h
          subst h
          refine ⟨rfl, ?_⟩
          rintro _ _ ⟨rfl, rfl⟩
          simpa using ih d hm
  | ext n c b ih =>
    intro t' k h
    simp only [mark] at h
    cases hr : extRest P n k with
    | error e => simp [hr] at h
    | ok o =>
      cases o with
      | none => simp [hr] at h; subst h; exact ⟨rfl, by simp [hr]⟩
      | some k' =>
        simp only [hr, R_bind_ok] at h
        cases hm : c.mark P k' with
        | error e => simp [hm] at h
        | ok r =>
          cases r with
          | error e => simp [hm] at h
          | ok c' =>
            simp [hm] at h
            subst h
            refine ⟨rfl, ?_⟩
            simpa [hr] using ih hm

theorem mark_keeps (P : Profile) : ∀ {t t' : LTracked} {k q : Key}, t.mark P k = .ok (.ok t') →
    t.Touch P q → t'.Touch P q := by
  intro t
  induction t with
  | empty b => intro t' k q h _; simp [mark] at h; subst h; trivial
  | hash hh b => intro t' k q h _; cases k <;> simp [mark] at h; subst h; trivial
  | leaf n v b => intro t' k q h _; simp [mark] at h; subst h; rfl
  | branch cs v b ih =>
    intro t' k q h hq
    cases k with
    | nil => simp [mark] at h; subst h; exact ⟨rfl, hq.2⟩
    | cons d k =>
      simp only [mark] at h
      cases hm : (cs d).mark P k with
      | error e => simp [hm] at h
      | ok r =>
        cases r with
        | error e => simp [hm] at h
        | ok c =>
          simp [hm] at h
          subst h
          refine ⟨rfl, ?_⟩
          rintro e q rfl
          by_cases he : e = d
          · subst he; simpa using ih e hm (hq.2 _ _ rfl)
          · simpa [upd_other _ _ he] using hq.2 _ _ rfl
  | ext n c b ih =>
    intro t' k q h hq
    simp only [mark] at h
    cases hr : extRest P n k with
    | error e => simp [hr] at h
    | ok o =>
      cases o with
      | none => simp [hr] at h; subst h; exact ⟨rfl, hq.2⟩
      | some k' =>
        simp only [hr, R_bind_ok] at h
        cases hm : c.mark P k' with
        | error e => simp [hm] at h
        | ok r =>
          cases r with
          | error e => simp [hm] at h
          | ok c' =>
            simp [hm] at h
            subst h
            refine ⟨rfl, ?_⟩
            have h2 := hq.2
            cases hr' : extRest P n q with
            | error e => trivial
            | ok o =>
              cases o with
              | none => trivial
              | some q' =>
                simp only [hr'] at h2
                exact ih hm h2

theorem markAll_keeps (P : Profile) : ∀ (ks : List Key) {t t' : LTracked} {q : Key},
    t.markAll P ks = .ok (.ok t') → t.Touch P q → t'.Touch P q := by
  intro ks
  induction ks with
  | nil => intro t t' q h ht; simp [markAll] at h; rw [← h]; exact ht
  | cons k ks ih =>
    intro t t' q h ht
    simp only [markAll] at h
    cases hm : t.mark P k with
    | error e => simp [hm] at h
    | ok r =>
      cases r with
      | error e => simp [hm] at h
      | ok c =>
        simp only [hm, R_bind_ok] at h
        exact ih h (mark_keeps P hm ht)

theorem markAll_touch (P : Profile) : ∀ (ks : List Key) {t t' : LTracked},
    t.markAll P ks = .ok (.ok t') → ∀ k ∈ ks, t'.Touch P k := by
  intro ks
  induction ks with
  | nil => intro t t' h k hk; simp at hk
  | cons k ks ih =>
    intro t t' h q hq
    simp only [markAll] at h
    cases hm : t.mark P k with
    | error e => simp [hm] at h
    | ok r =>
      cases r with
      | error e => simp [hm] at h
      | ok c =>
        simp only [hm, R_bind_ok] at h
        rcases List.mem_cons.1 hq with rfl | hq
        · exact markAll_keeps P ks h (mark_touch P hm)
        · exact ih h q hq

theorem away_touched {kec : Bytes → H256} {t : LTracked} (h : t.touched = true) :
    away kec t = none := by simp [away, h]

/-- Looking up a visited key in the subset is looking it up in the original. -/
theorem touch_get (P : Profile) (kec : Bytes → H256) : ∀ (t : LTracked) (k : Key), t.Touch P k →
    (t.subset kec).get P k = t.node.get P k := by
  intro t
  induction t with
  | empty b => intro k _; rfl
  | hash h b => intro k _; rfl
  | leaf n v b =>
    intro k h
    simp only [subset, away_touched (t := .leaf n v b) h, node]
  | branch cs v b ih =>
    intro k h
    simp only [subset, away_touched (t := .branch cs v b) h.1, node]
    cases k with
    | nil => rfl
    | cons d k => simp only [LNode.get]; exact ih d k (h.2 _ _ rfl)
  | ext n c b ih =>
    intro k h
    simp only [subset, away_touched (t := .ext n c b) h.1, node, LNode.get]
    have h2 := h.2
    simp only [extRest] at h2
    split
    · rename_i h3
      simp only [h3, if_true] at h2
      split
      · rename_i h4
        simp only [h4, if_true] at h2
        exact ih _ h2
      · rfl
    · rename_i h3
      simp only [h3, if_false] at h2
      split
      · rfl
      · rename_i h4
        simp only [h4] at h2
        split
        · rename_i h5
          rw [if_pos h5] at h2
          exact ih _ h2
        · rfl

/-- Nothing on the path of a visited key is replaced. -/
theorem touch_agree (P : Profile) (kec : Bytes → H256) : ∀ (t : LTracked) (k q : Key),
    t.Touch P k → q <+: k → LNode.absL (t.subset kec) q = LNode.absL t.node q := by
  intro t
  induction t with
  | empty b => intro k q _ _; rfl
  | hash h b => intro k q _ _; rfl
  | leaf n v b =>
    intro k q h _
    simp only [subset, away_touched (t := .leaf n v b) h, node]
  | branch cs v b ih =>
    intro k q h hq
    simp only [subset, away_touched (t := .branch cs v b) h.1, node]
    cases q with
    | nil => rfl
    | cons d q =>
      cases k with
      | nil => simp at hq
      | cons e k =>
        rw [List.cons_prefix_cons] at hq
        obtain ⟨rfl, hq⟩ := hq
        exact ih _ k q (h.2 _ _ rfl) hq
  | ext n c b ih =>
    intro k q h hq
    simp only [subset, away_touched (t := .ext n c b) h.1, node]
    by_cases hn : n <+: q
    · obtain ⟨r, rfl⟩ := hn
      simp only [LNode.absL_ext_append]
      obtain ⟨s, rfl⟩ := hq
      have h2 := h.2
      simp only [extRest] at h2
      rw [if_pos (by simp only [List.length_append]; omega),
        if_pos (by rw [List.append_assoc]; exact List.prefix_append _ _)] at h2
      simp only [List.append_assoc, List.drop_left] at h2
      exact ih (r ++ s) r h2 (List.prefix_append _ _)
    · rw [LNode.absL_ext_none hn, LNode.absL_ext_none hn]

end LTracked
end EthTrie
