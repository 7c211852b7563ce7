import Verif.Props.Long
import Verif.Trie.IterLazyAbs

/-!
# Property C68: iterators that are used one item at a time

`items()` returns an iterator; callers need not exhaust it.  `Iter.nth P n` is the result of the call
number `n` of `next`.
-/

namespace EthTrie

open Spec KMap LNode Nibbles

variable {K : Kind} {M : Mode} {P : Profile} {kec : Bytes → H256} {s : Sys K.Ann K.State} {i : Nat}
  {t : Trie K.Ann}

theorem Live.iter (h : Live K M P kec s) (ht : t ∈ s.hs) :
    t.iter.outs P = packOuts (t.plain.outs []) := by
  obtain ⟨w, p, Z, h1, _⟩ := h.inv.ex
  rw [h1.hs, List.mem_map] at ht
  obtain ⟨a, ha, rfl⟩ := ht
  have hok := h1.ok a ha
  rw [hok.rep.plain]
  exact iter_outs (L := Kind.laws kec K) hok.rep hok.ext

theorem packOuts_nth (a : Outs (Key × ValOrHash)) (n : Nat) : (packOuts a).nth n =
    (a.nth n).map fun o => o.map fun x => (ofList x.1, x.2) := by
  obtain ⟨J, e⟩ := a
  simp only [packOuts, Outs.map, Outs.nth, List.getElem?_map]
  cases J[n]? with
  | some x => rfl
  | none => cases e <;> rfl

/-- C68: with paths of at most 64 nibbles, `next` returns the entries one after the other, each exactly
once and in order, and then `None` for ever. -/
theorem C68_next (h : Live K M P kec s) (hi : s.hs[i]? = some t) (hp : t.PathsAtMost 64) :
    ∃ J : List (Key × ValOrHash), Lists J t.contents ∧ (J.Pairwise fun x y => Before x.1 y.1) ∧
      ∀ n, t.iter.nth P n = .ok (J[n]?.map fun x => (ofList x.1, x.2)) := by
  refine ⟨t.plain.items [], items_lists _, items_ordered _ _, fun n => ?_⟩
  have hb := (outs_bound t.plain [] (by simp)).2 ((plain_bound t).2 hp)
  have hJ := (outs_prefix t.plain []).2 hb
  rw [nth_outs, h.iter (List.mem_of_getElem? hi), packOuts_nth, Outs.nth, hJ, hb]
  cases (t.plain.items [])[n]? <;> rfl

example (K : Kind) (P : Profile) : ∃ J : List (Key × ValOrHash), Lists J (caseT K P 0).contents ∧
    (J.Pairwise fun x y => Before x.1 y.1) ∧
    ∀ n, (caseT K P 0).iter.nth P n = .ok (J[n]?.map fun x => (ofList x.1, x.2)) :=
  C68_next (caseLive K P) (caseGet K P (by decide)) (casePaths K P _ (by decide))

/-- C68: in general there is a number `m` of items that are returned; they are the first `m` entries.
After that `next` panics if there is a path of more than 64 nibbles. -/
theorem C68_prefix (h : Live K M P kec s) (hi : s.hs[i]? = some t) :
    ∃ (J : List (Key × ValOrHash)) (m : Nat), Lists J t.contents ∧
      (J.Pairwise fun x y => Before x.1 y.1) ∧ m ≤ J.length ∧ (t.PathsAtMost 64 → m = J.length) ∧
      (∀ n < m, t.iter.nth P n = .ok (J[n]?.map fun x => (ofList x.1, x.2))) ∧
      (¬ t.PathsAtMost 64 → ∀ n, m ≤ n → t.iter.nth P n = .error .assertFailed) := by
  have hb := outs_bound t.plain [] (by simp)
  obtain ⟨h1, h2⟩ := outs_prefix t.plain []
  refine ⟨t.plain.items [], (t.plain.outs []).1.length, items_lists _, items_ordered _ _, h1.length_le,
    fun hp => ?_, fun n hn => ?_, fun hp n hn => ?_⟩
  · rw [h2 (hb.2 ((plain_bound t).2 hp))]
  · rw [nth_outs, h.iter (List.mem_of_getElem? hi), packOuts_nth, Outs.nth]
    have := h1.getElem hn
    rw [List.getElem?_eq_getElem hn, List.getElem?_eq_getElem (Nat.lt_of_lt_of_le hn h1.length_le), this]
    rfl
  · rw [nth_outs, h.iter (List.mem_of_getElem? hi), packOuts_nth, Outs.nth,
      List.getElem?_eq_none hn]
    rcases outs_error t.plain [] with e | e
    · exact absurd ((plain_bound t).1 (hb.1 e)) hp
    · rw [e]; rfl

/-- C68: on canonical tries, exactly the entries before the first one whose key has more than 64 nibbles
are returned; the call that should return this entry panics. -/
theorem C68_canonical (h : Live K M P kec s) (hi : s.hs[i]? = some t) (hc : t.Canonical) :
    ∃ J : List (Key × ValOrHash), Lists J t.contents ∧ (J.Pairwise fun x y => Before x.1 y.1) ∧
      ∀ n, t.iter.nth P n = if (J.take (n + 1)).all (fun x => decide (x.1.length ≤ 64)) then
          .ok (J[n]?.map fun x => (ofList x.1, x.2))
        else .error .assertFailed := by
  refine ⟨t.plain.items [], items_lists _, items_ordered _ _, fun n => ?_⟩
  rw [nth_outs, h.iter (List.mem_of_getElem? hi), packOuts_nth,
    (plain_of_canonical t hc).outs_eq (by simp), shortOuts_nth]
  show _ = if ((t.plain.items []).take (n + 1)).all isShort then _ else _
  split <;> rfl

/-- C68: the item number `n` of `items()` is what the call number `n` of `next` returns. -/
theorem C68_items (h : Live K M P kec s) (hi : s.hs[i]? = some t) {J : List Item}
    (hJ : t.items P = .ok J) (n : Nat) : t.iter.nth P n = .ok J[n]? := by
  have hp := ((C67_items h hi).1).1 ⟨J, hJ⟩
  have hb := (outs_bound t.plain [] (by simp)).2 ((plain_bound t).2 hp)
  have hJ' := (outs_prefix t.plain []).2 hb
  rw [h.items_ok hi hJ] at hJ
  rw [← Except.ok.inj hJ, nth_outs, h.iter (List.mem_of_getElem? hi), packOuts_nth, Outs.nth, hJ', hb,
    packItems, List.getElem?_map]
  cases (t.plain.items [])[n]? <;> rfl

/-! ## Examples -/

/-- What the first five calls of `next` return after some calls. -/
def Kind.nexts (K : Kind) (P : Profile) (kec : Bytes → H256) (cs : List Cmd) :
    Option (List (R (Option Item))) := do
  let (s, _) ← (K.run P kec cs).toOption
  let t ← s.hs[0]?
  return (List.range 5).map (t.iter.nth P)

/-- Two keys. -/
example : ∀ (K : Kind) (P : Profile) (kec : Bytes → H256),
    K.nexts P kec [.new, .insert 0 [2, 1] (.val [8]), .insert 0 [2] (.val [7])] =
      some [.ok (some (ofList [2, 1], .val [8])), .ok (some (ofList [2], .val [7])), .ok none, .ok none,
        .ok none] := by
  intro K ⟨P⟩ kec; cases K <;> cases P <;> kernel_rfl

/-- The second of three keys has 65 nibbles: the first one is returned, then the iterator panics. -/
example : ∀ (K : Kind) (P : Profile) (kec : Bytes → H256),
    K.nexts P kec [.new, .insert 0 [3, 1] (.val [9]), .insert 0 (2 :: List.replicate 64 5) (.val [8]),
      .insert 0 [1, 4] (.val [7])] =
      some [.ok (some (ofList [1, 4], .val [7])), .error .assertFailed, .error .assertFailed,
        .error .assertFailed, .error .assertFailed] := by
  intro K ⟨P⟩ kec; cases K <;> cases P <;> kernel_rfl

end EthTrie
