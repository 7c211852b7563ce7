import Verif.Trie.IterSim
import Verif.Subset.Sim

/-!
# Extensions always lead to branches or hash nodes

No operation creates an extension with an empty key, or one leading to a leaf, an extension or an
empty node.  (There are no preconditions: this holds after every call that returns.)
-/

namespace EthTrie

open Nibbles Spec

namespace LNode

/-- Like `ExtOK`, with nothing required of the child of an extension at the root. -/
def PreExt : LNode → Prop
  | .ext n c => n ≠ [] ∧ c.ExtOK
  | l => l.ExtOK

theorem ExtOK.pre {l : LNode} (h : l.ExtOK) : l.PreExt := by
  cases l with
  | ext n c => exact ⟨h.1, h.2.2⟩
  | _ => exact h

theorem mkNode_extOK (k : Key) (v : ValOrHash) : (mkNode k v).ExtOK := by
  cases v with
  | val v => trivial
  | hash h => cases k with
    | nil => trivial
    | cons d k => exact ⟨by simp, trivial, trivial⟩

theorem mkExt_extOK {n : Key} {c : LNode} (hb : c.isBH) (h : c.ExtOK) : (mkExt n c).ExtOK := by
  cases n with
  | nil => exact h
  | cons d n => exact ⟨by simp, hb, h⟩

theorem upd_extOK {cs : Fin 16 → LNode} {c : LNode} (d : Fin 16) (h : ∀ i, (cs i).ExtOK)
    (hc : c.ExtOK) : ∀ i, (upd cs d c i).ExtOK := by
  intro i
  by_cases e : i = d
  · subst e; simpa using hc
  · simpa only [upd_other _ _ e] using h i

theorem insert_extOK {v : ValOrHash} : ∀ {l : LNode} {k : Key} {r : LNode}, l.ExtOK →
    l.insert k v = .ok r → r.ExtOK ∧ (l.isBH → r.isBH) := by
  intro l
  induction l with
  | empty =>
    intro k r _ h
    simp [insert] at h; subst h
    exact ⟨mkNode_extOK k v, fun h => h.elim⟩
  | hash h => intro k r _ h; simp [insert] at h
  | branch cs w ih =>
    intro k r hl h
    cases k with
    | nil =>
      cases v with
      | val x => simp [insert] at h; subst h; exact ⟨hl, fun _ => trivial⟩
      | hash x => simp [insert] at h
    | cons d k =>
      simp only [insert, R_bind_eq_ok] at h
      obtain ⟨c, hc, h⟩ := h
      simp at h; subst h
      exact ⟨upd_extOK d hl (ih d (hl d) hc).1, fun _ => trivial⟩
  | ext n c ih =>
    intro k r hl h
    obtain ⟨h1, h2, h3⟩ := hl
    simp only [insert] at h
    split at h
    · simp only [R_bind_eq_ok] at h
      obtain ⟨c', hc, h⟩ := h
      simp at h; subst h
      have := ih h3 hc
      exact ⟨⟨h1, this.2 h2, this.1⟩, fun h => h.elim⟩
    · split at h
      · simp at h; subst h
        refine ⟨mkExt_extOK trivial ?_, fun h => h.elim⟩
        exact upd_extOK _ (upd_extOK _ (fun _ => trivial) (mkExt_extOK h2 h3)) (mkNode_extOK _ _)
      · simp at h
  | leaf n w =>
    intro k r hl h
    refine ⟨?_, fun h => h.elim⟩
    simp only [insert] at h
    split at h
    · cases v with
      | val x => simp at h; subst h; trivial
      | hash x => simp at h
    · split at h
      · simp at h; subst h
        exact mkExt_extOK trivial (upd_extOK _ (fun _ => trivial) (mkNode_extOK _ _))
      · cases v with
        | val x =>
          simp at h; subst h
          exact mkExt_extOK trivial (upd_extOK (c := .leaf _ _) _ (fun _ => trivial) trivial)
        | hash x => simp at h
      · simp at h; subst h
        exact mkExt_extOK trivial (upd_extOK _ (upd_extOK (c := .leaf _ _) _ (fun _ => trivial)
          trivial) (mkNode_extOK _ _))
      · simp at h

theorem collapse_preExt {n : Key} {c r : LNode} (hn : n ≠ []) (hc : c.PreExt)
    (h : collapse n c = .ok r) : r.PreExt := by
  cases c with
  | empty => simp [collapse] at h
  | hash x => simp [collapse] at h; subst h; exact ⟨hn, trivial⟩
  | leaf m v => simp [collapse] at h; subst h; trivial
  | branch cs v => simp [collapse] at h; subst h; exact ⟨hn, hc⟩
  | ext m c => simp [collapse] at h; subst h; exact ⟨by simp [hn], hc.2⟩

theorem tryCollapse_extOK {c r : LNode} (hc : c.PreExt) (h : tryCollapse c = .ok r) :
    r.ExtOK := by
  cases c with
  | empty => simp [tryCollapse] at h; subst h; trivial
  | hash x => simp [tryCollapse] at h; subst h; trivial
  | leaf m v => simp [tryCollapse] at h; subst h; trivial
  | branch cs v => simp [tryCollapse] at h; subst h; exact hc
  | ext n c =>
    obtain ⟨h1, h2⟩ := hc
    simp only [tryCollapse] at h
    cases c with
    | empty => simp [collapse] at h
    | hash x => simp [collapse] at h; subst h; exact ⟨h1, trivial, trivial⟩
    | leaf m v => simp [collapse] at h; subst h; trivial
    | branch cs v => simp [collapse] at h; subst h; exact ⟨h1, trivial, h2⟩
    | ext m c => simp [collapse] at h; subst h; exact ⟨by simp [h1], h2.2.1, h2.2.2⟩

theorem deleteRec_preExt : ∀ {l : LNode} {k : Key} {r : LNode} {x : Bytes}, l.ExtOK →
    l.deleteRec k = .ok (some (r, x)) → r.PreExt := by
  intro l
  induction l with
  | empty => intro k r x _ h; simp [deleteRec] at h
  | hash h => intro k r x _ h; simp [deleteRec] at h
  | leaf n v =>
    intro k r x _ h
    simp only [deleteRec] at h
    split at h <;> simp at h
    obtain ⟨rfl, rfl⟩ := h
    trivial
  | branch cs w ih =>
    intro k r x hl h
    cases k with
    | nil => simp [deleteRec] at h; obtain ⟨rfl, rfl⟩ := h; exact hl
    | cons d k =>
      simp only [deleteRec, R_bind_eq_ok] at h
      obtain ⟨o, ho, h⟩ := h
      cases o with
      | none => simp at h
      | some cx =>
        obtain ⟨c, y⟩ := cx
        simp only at h
        split at h
        · split at h
          · simp at h; obtain ⟨rfl, rfl⟩ := h
            exact ⟨by simp, hl _⟩
          · simp at h
        · simp only [R_bind_eq_ok] at h
          obtain ⟨c', hc, h⟩ := h
          simp at h; obtain ⟨rfl, rfl⟩ := h
          exact upd_extOK d hl (tryCollapse_extOK (ih d (hl d) ho) hc)
  | ext n c ih =>
    intro k r x hl h
    simp only [deleteRec] at h
    split at h
    · simp only [R_bind_eq_ok] at h
      obtain ⟨o, ho, h⟩ := h
      cases o with
      | none => simp at h
      | some cx =>
        obtain ⟨c', y⟩ := cx
        simp only [R_bind_eq_ok] at h
        obtain ⟨r', hc, h⟩ := h
        simp at h; obtain ⟨rfl, rfl⟩ := h
        exact collapse_preExt hl.1 (ih hl.2.2 ho) hc
    · simp at h

theorem delete_extOK {l r : LNode} {k : Key} {o : Option Bytes} (hl : l.ExtOK)
    (h : l.delete k = .ok (r, o)) : r.ExtOK := by
  simp only [delete, R_bind_eq_ok] at h
  obtain ⟨x, hx, h⟩ := h
  cases x with
  | none => simp at h; rw [← h.1]; exact hl
  | some cx =>
    obtain ⟨c, y⟩ := cx
    simp only [R_bind_eq_ok] at h
    obtain ⟨r', hr, h⟩ := h
    simp at h; rw [← h.1]
    exact tryCollapse_extOK (deleteRec_preExt hl hx) hr

end LNode

namespace LTracked

theorem subset_isBH {kec : Bytes → H256} {t : LTracked} (h : t.node.isBH) :
    (t.subset kec).isBH := by
  cases t with
  | empty => exact h.elim
  | leaf => exact h.elim
  | ext => exact h.elim
  | hash => trivial
  | branch cs v b =>
    simp only [subset]
    split <;> trivial

theorem subset_extOK {kec : Bytes → H256} : ∀ {t : LTracked}, t.node.ExtOK →
    (t.subset kec).ExtOK := by
  intro t
  induction t with
  | empty => intro _; trivial
  | hash => intro _; trivial
  | leaf n v b => intro _; simp only [subset]; split <;> trivial
  | branch cs v b ih =>
    intro h
    simp only [subset]
    split
    · trivial
    · intro i; exact ih i (h i)
  | ext n c b ih =>
    intro h
    simp only [subset]
    split
    · trivial
    · exact ⟨h.1, subset_isBH h.2.1, ih h.2.2⟩

theorem subset_bound {kec : Bytes → H256} : ∀ {t : LTracked} {b : Nat}, t.node.Bound b →
    (t.subset kec).Bound b := by
  intro t
  induction t with
  | empty => intro _ _; trivial
  | hash => intro _ _; trivial
  | leaf n v _ =>
    intro b h; simp only [subset]
    split
    · trivial
    · exact h
  | branch cs v _ ih =>
    intro b h
    simp only [subset]
    split
    · trivial
    · exact ⟨h.1, fun i => ih i (h.2 i)⟩
  | ext n c _ ih =>
    intro b h
    simp only [subset]
    split
    · trivial
    · exact ⟨h.1, ih h.2⟩

end LTracked
end EthTrie
