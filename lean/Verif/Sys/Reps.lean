import Verif.Spec.View
import Verif.Sys.LiveInv

/-!
# Represented tries
-/

namespace EthTrie

open Spec KMap LNode Nibbles

namespace Trie

/-- All keys in the trie are normalised. -/
def WFKeys {α : Type} : Trie α → Prop
  | .empty _ => True
  | .hash _ _ => True
  | .branch _ cs _ => ∀ i, WFKeys (cs i)
  | .ext _ n c => n.WF ∧ WFKeys c
  | .leaf _ n _ => n.WF

/-- Equality of tries is equality up to cache cells. -/
theorem beq_iff_plain {α β : Type} : ∀ {t : Trie α} {u : Trie β}, t.WFKeys → u.WFKeys →
    (t.beq u = true ↔ t.plain = u.plain) := by
  intro t
  induction t with
  | empty a => intro u _ _; cases u <;> simp [beq, plain]
  | hash a h => intro u _ _; cases u <;> simp [beq, plain]
  | branch a cs v ih =>
    intro u ht hu
    cases u with
    | branch b cs' v' =>
      simp only [beq, plain, Bool.and_eq_true, beq_iff_eq, List.all_eq_true, List.mem_finRange,
        true_implies, LNode.branch.injEq]
      constructor
      · rintro ⟨rfl, h⟩
        exact ⟨funext fun i => (ih i (ht i) (hu i)).1 (h i), rfl⟩
      · rintro ⟨h, rfl⟩
        exact ⟨rfl, fun i => (ih i (ht i) (hu i)).2 (congrFun h i)⟩
    | _ => simp [beq, plain]
  | ext a n c ih =>
    intro u ht hu
    cases u with
    | ext b n' c' =>
      simp only [beq, plain, Bool.and_eq_true, beq_iff_eq, LNode.ext.injEq]
      rw [ih ht.2 hu.2]
      exact and_congr_left fun _ => ⟨fun h => h ▸ rfl, toList_WF_inj ht.1 hu.1⟩
    | _ => simp [beq, plain]
  | leaf a n v =>
    intro u ht hu
    cases u with
    | leaf b n' v' =>
      simp only [beq, plain, Bool.and_eq_true, beq_iff_eq, LNode.leaf.injEq]
      exact and_congr_left fun _ => ⟨fun h => h ▸ rfl, toList_WF_inj ht hu⟩
    | _ => simp [beq, plain]

end Trie

theorem RepN.wfKeys {kec : Bytes → H256} {α S : Type} [K : TrieKind α S] [L : KindLaws kec α S]
    {w : L.W} {t : Trie α} {l : LNode} (h : RepN kec w t l) : t.WFKeys := by
  induction h with
  | empty a => trivial
  | hash a h => trivial
  | branch a cs lcs v h ho ih => exact ih
  | ext a k c lc hk h ho ih => exact ⟨ofList_WF k, ih⟩
  | leaf a k v hk => exact ofList_WF k

variable {P : Profile} {kec : Bytes → H256}

theorem repN_bare {α S : Type} [TrieKind α S] [L : KindLaws kec α S] {w : L.W}
    {t : Trie α} {l : LNode} (h : RepN kec w t l) :
    RepN (L := lawsUnit kec) kec () t.bare l := by
  induction h with
  | empty a => exact .empty ()
  | hash a h => exact .hash () h
  | branch a cs lcs v h ho ih => exact .branch () _ _ v ih fun _ => trivial
  | ext a k c lc hk h ho ih => exact .ext () k _ _ hk ih trivial
  | leaf a k v hk => exact .leaf () k v hk

/-- `Trie.plain` represents the trie. -/
def Trie.Plain {α : Type} (kec : Bytes → H256) (t : Trie α) : Prop :=
  RepN (L := lawsUnit kec) kec () t.bare t.plain

theorem Trie.Plain.refer {α : Type} {t : Trie α} (h : t.Plain kec) :
    t.refer P kec = .ok (t.plain.enc kec) := by
  obtain ⟨x, w, h1, _, rfl⟩ := (sim_cached (L := lawsUnit kec) (w := ()) (a := ())
    trivial fun w _ => sim_encode (P := P) (L := lawsUnit kec) t.plain t.bare w h).run
  have h2 : (hashIntern P kec t.bare).run () = _ := h1
  rw [Trie.refer, h2]; rfl

theorem Trie.Plain.branch {α : Type} {a : α} {cs : Fin 16 → Trie α} {v : Bytes}
    (h : (Trie.branch a cs v).Plain kec) (i : Fin 16) : (cs i).Plain kec := by
  simp only [Trie.Plain, Trie.bare, Trie.plain] at h ⊢
  cases h with
  | branch _ _ _ _ h _ => exact h i

theorem Trie.Plain.ext {α : Type} {a : α} {n : Nibbles} {c : Trie α}
    (h : (Trie.ext a n c).Plain kec) : c.Plain kec ∧ n.WF := by
  have := h.wfKeys
  simp only [Trie.Plain, Trie.bare, Trie.plain] at h ⊢
  refine ⟨?_, this.1⟩
  generalize hn : n.toList = l at h
  generalize n = n' at h
  cases h with
  | ext _ _ _ _ _ h _ => exact h

theorem Trie.Plain.leaf {α : Type} {a : α} {n : Nibbles} {v : Bytes}
    (h : (Trie.leaf a n v).Plain kec) : n.WF := h.wfKeys

end EthTrie
