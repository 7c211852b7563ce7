import Verif.Sys.Live

/-!
# Handles are sound
-/

namespace EthTrie

open Spec KMap LNode Nibbles

theorem RepN.formed {kec : Bytes → H256} {α S : Type} [TrieKind α S] [L : KindLaws kec α S] {w : L.W}
    {t : Trie α} {l : LNode} (h : RepN kec w t l) {b : Nat} (hb : l.Bound b) (he : l.ExtOK) :
    t.Formed b := by
  induction h generalizing b with
  | empty a => trivial
  | hash a x => trivial
  | leaf a k v hk => exact ⟨ofList_WF k, hb⟩
  | ext a k c lc hk h ho ih =>
    refine ⟨ofList_WF k, fun e => he.1 (List.length_eq_zero_iff.1 e), hb.1, ?_, ih hb.2 he.2.2⟩
    have := he.2.1
    cases h <;> first | exact this | trivial
  | branch a cs lcs v h ho ih => exact ⟨hb.1, fun i => ih i (hb.2 i) (he i)⟩

variable {K : Kind} {M : Mode} {P : Profile} {kec : Bytes → H256} {s : Sys K.Ann K.State}

theorem RepN.innerRight {w : (Kind.laws kec K).W} {t : Trie K.Ann} {l : LNode}
    (h : RepN (L := Kind.laws kec K) kec w t l) (q : Key) (u : Trie K.Ann) (hu : t.NodeAt q u)
    (hq : q ≠ []) (x : H256) (hx : K.get ((Kind.laws kec K).st w) u.ann = some x) :
    u.refer P kec = .ok (.hashed x) := by
  obtain ⟨l', h1, _, h3⟩ := h.nodeAt hu
  rcases h3 with ⟨e, _⟩ | h3
  · exact absurd e hq
  · have hp : u.Plain kec := by
      rw [Trie.Plain, h1.plain]
      exact repN_bare h1
    rw [hp.refer, h1.plain, (Kind.laws kec K).get_ok h3 hx]

/-- Handles are sound. -/
theorem LiveInv.sound (h : LiveInv K M kec s) {t : Trie K.Ann} (ht : t ∈ s.hs) :
    t.Sound K M P kec s.state := by
  obtain ⟨w, p, Z, h1, h2⟩ := h.ex
  rw [h1.hs, List.mem_map] at ht
  obtain ⟨a, ha, rfl⟩ := ht
  have hok := h1.ok a ha
  rw [h1.state]
  refine ⟨hok.rep.formed hok.bound hok.ext, hok.rep.innerRight, fun hK => ?_⟩
  have h3 := h2 hK
  have hcell : K.get ((Kind.laws kec K).st w) a.1.ann = p.filled a.2.2 := hok.cell
  cases M with
  | any => trivial
  | noEmptySubset => exact hcell.trans (h3 _)
  | noClone =>
    intro x hx
    have hp : a.1.Plain kec := by
      rw [Trie.Plain, hok.rep.plain]
      exact repN_bare hok.rep
    rw [hp.refer, hok.rep.plain]
    have hm : a.2 ∈ p.hs := by rw [h1.phs]; exact List.mem_map_of_mem ha
    exact congrArg _ (h3.right a.2 hm x (hcell ▸ hx))

end EthTrie
