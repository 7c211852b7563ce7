import Verif.Trie.Commit
import Verif.Trie.ViewOps
import Verif.Trie.ExtOK

/-!
# Deletions from partial tries that collapse a branch onto a hash node

If the hash node stands for a leaf or an extension then the result is not a partial view of the
result of the same deletion from the full trie.
-/

namespace EthTrie
namespace LNode

variable {kec : Bytes → H256}

/-- An extension leads to a hash node in one of the tries where the other one has a leaf or a longer
extension. -/
inductive Mis : LNode → LNode → Prop
  | leaf (n : Key) (x : H256) (m : Key) (v : Bytes) : Mis (.ext n (.hash x)) (.leaf m v)
  | ext (n : Key) (x : H256) (m : Key) (c : LNode) (h : n ≠ m) (hc : c.isBH) :
      Mis (.ext n (.hash x)) (.ext m c)
  | branch (ps cs : Fin 16 → LNode) (v w : Bytes) (i : Fin 16) (h : Mis (ps i) (cs i)) :
      Mis (.branch ps v) (.branch cs w)
  | extBranch (n m : Key) (ps cs : Fin 16 → LNode) (v w : Bytes) (i : Fin 16) (h : Mis (ps i) (cs i)) :
      Mis (.ext n (.branch ps v)) (.ext m (.branch cs w))

theorem Mis.not_agree {p t : LNode} (h : Mis p t) : ¬ Agree kec p t := by
  induction h with
  | leaf n x m v => intro h; cases h
  | ext n x m c h hc => intro g; cases g; exact h rfl
  | branch ps cs v w i h ih => intro g; cases g with | branch _ _ _ g => exact ih (g i)
  | extBranch n m ps cs v w i h ih =>
    intro g
    cases g with | ext _ _ _ g => cases g with | branch _ _ _ g => exact ih (g i)

theorem View.agree {p t : LNode} (h : View kec p t) : Agree kec p t := by
  induction h with
  | away l x he => exact .left _ _ he
  | empty => exact .empty
  | branch ps cs v h ih => exact .branch _ _ _ ih
  | ext n p c h ih => exact .ext _ _ _ ih
  | leaf n v => exact .leaf _ _

theorem Mis.not_hash {p t : LNode} (h : Mis p t) : ¬ p.IsHash ∧ ¬ t.IsHash := by
  cases h <;> simp [IsHash]

/-- Before collapsing. -/
def PreMis (p t : LNode) : Prop :=
  Mis p t ∨ ∃ n x u, p = .ext n (.hash x) ∧ t = .ext n u ∧ u.LeafOrExt ∧ u.ExtOK

theorem PreMis.tryCollapse {p t r : LNode} (h : PreMis p t) (hr : LNode.tryCollapse p = .ok r) :
    ∃ r', LNode.tryCollapse t = .ok r' ∧ Mis r r' := by
  rcases h with h | ⟨n, x, u, rfl, rfl, hu, ho⟩
  · cases h with
    | leaf n x m v => cases hr; exact ⟨_, rfl, .leaf _ _ _ _⟩
    | ext n x m c h hc =>
      cases hr
      cases c with
      | branch cs v => exact ⟨_, rfl, .ext _ _ _ _ h hc⟩
      | hash y => exact ⟨_, rfl, .ext _ _ _ _ h hc⟩
      | _ => cases hc
    | branch ps cs v w i h => cases hr; exact ⟨_, rfl, .branch _ _ _ _ i h⟩
    | extBranch n m ps cs v w i h => cases hr; exact ⟨_, rfl, .extBranch _ _ _ _ _ _ i h⟩
  · cases hr
    cases u with
    | leaf m v => exact ⟨_, rfl, .leaf _ _ _ _⟩
    | ext m c => exact ⟨_, rfl, .ext _ _ _ _ (fun e => ho.1 (by simpa using e)) ho.2.1⟩
    | _ => cases hu

theorem PreMis.collapse {p t r : LNode} (h : PreMis p t) {n : Key} (hr : LNode.collapse n p = .ok r) :
    ∃ r', LNode.collapse n t = .ok r' ∧ PreMis r r' := by
  rcases h with h | ⟨m, x, u, rfl, rfl, hu, ho⟩
  · cases h with
    | leaf m x k v => cases hr; exact ⟨_, rfl, .inl (.leaf _ _ _ _)⟩
    | ext m x k c h hc =>
      cases hr; exact ⟨_, rfl, .inl (.ext _ _ _ _ (fun e => h (by simpa using e)) hc)⟩
    | branch ps cs v w i h => cases hr; exact ⟨_, rfl, .inl (.extBranch _ _ _ _ _ _ i h)⟩
    | extBranch m k ps cs v w i h => cases hr; exact ⟨_, rfl, .inl (.extBranch _ _ _ _ _ _ i h)⟩
  · cases hr; exact ⟨_, rfl, .inr ⟨_, _, _, rfl, rfl, hu, ho⟩⟩

theorem PreMis.not_empty {p t : LNode} (h : PreMis p t) : p.isEmpty = false ∧ t.isEmpty = false := by
  rcases h with h | ⟨m, x, u, rfl, rfl, hu, ho⟩
  · cases h <;> exact ⟨rfl, rfl⟩
  · exact ⟨rfl, rfl⟩

theorem At.nil {l u : LNode} {q : Key} (h : At l q u) (ho : l.ExtOK) (hq : q = []) : u = l := by
  cases h with
  | here => rfl
  | branch => cases hq
  | ext n c q u h => exact absurd (List.append_eq_nil_iff.1 hq).1 ho.1

theorem At.under {n q : Key} {c u : LNode} (h : At (.ext n c) (n ++ q) u) (ho : n ≠ []) : At c q u := by
  generalize hl : ext n c = l at h
  generalize hk : n ++ q = k at h
  cases h with
  | here => exact absurd (List.append_eq_nil_iff.1 hk).1 ho
  | ext m c' q' u h =>
    cases hl
    rw [List.append_cancel_left hk]; exact h

theorem View.strand {p t : LNode} {q : Key} {cs : Fin 16 → LNode} {v : Bytes}
    (ha : At p q (.branch cs v)) (h : View kec p t) (ho : t.ExtOK) {d j : Fin 16} {r : Key} {x : H256}
    {u : LNode} {w y : Bytes} (hj : j ≠ d) (hc : ∀ l, cs l ≠ .empty → l = d ∨ l = j)
    (hd : cs d = .leaf r w) (hx : cs j = .hash x) (hu : At t (q ++ [j]) u) (hlo : u.LeafOrExt)
    {p' : LNode} (hp : p.deleteRec (q ++ d :: r) = .ok (some (p', y))) :
    ∃ t', t.deleteRec (q ++ d :: r) = .ok (some (t', y)) ∧ PreMis p' t' := by
  generalize hb : LNode.branch cs v = b at ha
  induction ha generalizing t p' with
  | here l =>
    subst hb
    cases h with
    | branch _ ts _ h =>
    obtain ⟨hnum, hoth⟩ := numNonEmpty_view h
    have hu' : u = ts j := by
      cases hu with | branch _ _ _ _ _ hu => exact hu.nil (ho j) rfl
    have htd : ts d = .leaf r w := by
      have := h d
      rw [hd] at this
      generalize ts d = c at this
      cases this; rfl
    simp only [List.nil_append, LNode.deleteRec, hd, htd, if_true, R_bind_ok] at hp ⊢
    split at hp
    · rename_i hc2
      rw [if_pos (by rw [← hnum]; exact hc2), ← hoth]
      split at hp
      · rename_i i hi
        have hi' := List.find?_some hi
        simp only [bne_iff_ne, ne_eq, Bool.and_eq_true, Bool.not_eq_true'] at hi'
        have hid : i ≠ d := fun e => hi'.1 (by rw [e])
        have hie : cs i ≠ .empty := fun e => by simp [e, isEmpty] at hi'
        obtain rfl : i = j := (hc i hie).resolve_left hid
        cases hp
        refine ⟨_, rfl, .inr ⟨[i], x, ts i, by rw [hx], rfl, hu' ▸ hlo, ho i⟩⟩
      · cases hp
    · rename_i hc2
      exfalso
      refine hc2 ⟨rfl, ?_⟩
      have hle : ((List.finRange 16).filter fun i => !(cs i).isEmpty) ⊆ [d, j] := by
        intro i hi
        simp only [List.mem_filter, Bool.not_eq_true'] at hi
        have : cs i ≠ .empty := fun e => by simp [e, isEmpty] at hi
        rcases hc i this with rfl | rfl <;> simp
      exact (((List.nodup_finRange 16).filter _).subperm hle).length_le
  | branch ps v0 e q u' hat ih =>
    cases h with
    | branch _ ts _ h =>
    obtain ⟨hnum, hoth⟩ := numNonEmpty_view h
    simp only [List.cons_append, LNode.deleteRec, R_bind_eq_ok] at hp
    obtain ⟨o, h1, h2⟩ := hp
    cases o with
    | none => simp at h2
    | some cx =>
      obtain ⟨c, z⟩ := cx
      have hy : z = y := by
        simp only at h2
        split at h2
        · split at h2 <;> cases h2; rfl
        · rw [R_bind_eq_ok] at h2
          obtain ⟨_, _, h2⟩ := h2
          cases h2; rfl
      subst hy
      have hu' : At (ts e) (q ++ [j]) u := by
        cases hu with | branch _ _ _ _ _ hu => exact hu
      obtain ⟨c', g1, g2⟩ := ih (h e) (ho e) hu' h1 hb
      simp only [g2.not_empty.1, Bool.false_eq_true, false_and, if_false, R_bind_eq_ok] at h2
      obtain ⟨c1, h3, h4⟩ := h2
      cases h4
      obtain ⟨c2, h5, h6⟩ := g2.tryCollapse h3
      refine ⟨.branch (EthTrie.upd ts e c2) v0, ?_, .inl (.branch _ _ _ _ e (by simpa [EthTrie.upd] using h6))⟩
      simp only [List.cons_append, LNode.deleteRec, g1, R_bind_ok, g2.not_empty.2, Bool.false_eq_true, false_and,
        if_false, h5, R_pure]
  | ext n c q u' hat ih =>
    cases h with
    | ext _ _ tc h =>
    simp only [LNode.deleteRec, List.append_assoc, List.prefix_append, true_or, if_true,
      List.drop_left, R_bind_eq_ok] at hp
    obtain ⟨o, h1, h2⟩ := hp
    cases o with
    | none => simp at h2
    | some cx =>
      obtain ⟨c1, z⟩ := cx
      simp only [R_bind_eq_ok] at h2
      obtain ⟨r1, h3, h4⟩ := h2
      cases h4
      rw [List.append_assoc] at hu
      obtain ⟨c', g1, g2⟩ := ih h ho.2.2 (hu.under ho.1) h1 hb
      obtain ⟨r2, h5, h6⟩ := g2.collapse h3
      refine ⟨r2, ?_, h6⟩
      simp only [LNode.deleteRec, List.append_assoc, List.prefix_append, true_or, if_true,
        List.drop_left, g1, R_bind_ok, h5, R_pure]

/-- A deletion that collapses a branch onto a hash node standing for a leaf or an extension. -/
theorem View.delete_strand {p t : LNode} (h : View kec p t) (ho : t.ExtOK) {k : Key}
    (hl : LastHash p t k) {p' : LNode} {o : Option Bytes} (hp : p.delete k = .ok (p', o)) :
    ∃ t', t.delete k = .ok (t', o) ∧ Mis p' t' := by
  obtain ⟨q, d, j, r, cs, v, x, u, w, rfl, h1, h2, h3, h4, h5, h6, h7⟩ := hl
  simp only [LNode.delete, R_bind_eq_ok] at hp
  obtain ⟨a, hr, hp⟩ := hp
  cases a with
  | none =>
    exfalso
    clear hp h6
    revert hr
    generalize hb : LNode.branch cs v = b at h1
    induction h1 generalizing t with
    | here l =>
      subst hb
      simp only [List.nil_append, LNode.deleteRec, h4, if_true, R_bind_ok]
      split
      · split <;> intro h <;> cases h
      · rw [R_bind_eq_ok]
        rintro ⟨_, _, h⟩
        cases h
    | branch ps v0 e q u' hat ih =>
      cases h with
      | branch _ ts _ h =>
      simp only [List.cons_append, LNode.deleteRec, R_bind_eq_ok]
      rintro ⟨o, h1, h2⟩
      cases o with
      | none => exact ih (h e) (ho e) hb h1
      | some cx =>
        simp only at h2
        split at h2
        · split at h2 <;> cases h2
        · rw [R_bind_eq_ok] at h2
          obtain ⟨_, _, h2⟩ := h2
          cases h2
    | ext n c q u' hat ih =>
      cases h with
      | ext _ _ tc h =>
      simp only [LNode.deleteRec, List.append_assoc, List.prefix_append, true_or, if_true,
        List.drop_left, R_bind_eq_ok]
      rintro ⟨o, h1, h2⟩
      cases o with
      | none => exact ih h ho.2.2 hb h1
      | some cx =>
        simp only [R_bind_eq_ok] at h2
        obtain ⟨_, _, h2⟩ := h2
        cases h2
  | some cx =>
    obtain ⟨c, y⟩ := cx
    simp only [R_bind_eq_ok] at hp
    obtain ⟨r1, h8, h9⟩ := hp
    cases h9
    obtain ⟨c', g1, g2⟩ := View.strand h1 h ho h2 h3 h4 h5 h6 h7 hr
    obtain ⟨r2, g3, g4⟩ := g2.tryCollapse h8
    exact ⟨r2, by simp only [LNode.delete, g1, R_bind_ok, g3, R_pure], g4⟩

end LNode
end EthTrie
