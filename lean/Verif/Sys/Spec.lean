import Verif.Sys.Safe
import Verif.Subset.Marks

/-!
# Supported programs do what the specification on finite maps says
-/

namespace EthTrie

open Spec KMap LNode Nibbles

namespace PSys

variable {P : Profile} {kec : Bytes → H256}

theorem extendL_spec : ∀ (xs : List (Key × ValOrHash)) (l : LNode), l.Canon →
    PutsOK (absL l) xs → ∃ l', extendL l xs = .ok l' ∧ l'.Canon ∧ absL l' = (absL l).putAll xs := by
  intro xs
  induction xs with
  | nil => intro l hc _; exact ⟨l, rfl, hc, rfl⟩
  | cons x xs ih =>
    obtain ⟨k, v⟩ := x
    intro l hc h
    obtain ⟨l1, h1, h2, _, h3, _⟩ := insert_abs v l k hc h.2.1
    obtain ⟨l2, h4, h5, h6⟩ := ih l1 h2 (by rw [h3]; exact h.2.2)
    exact ⟨l2, by simp only [extendL, h1, R_bind_ok, h4], h5, by rw [h6, h3]; rfl⟩

theorem putsOK_short : ∀ (xs : List (Key × ValOrHash)) (m : KMap), PutsOK m xs →
    ∀ x ∈ xs, x.1.length ≤ 127 := by
  intro xs
  induction xs with
  | nil => intro m _ x hx; simp at hx
  | cons x xs ih =>
    intro m h y hy
    obtain ⟨k, v⟩ := x
    rcases List.mem_cons.1 hy with rfl | hy
    · exact h.1
    · exact ih _ h.2.2 y hy

theorem subset_spec {l : LNode} (hc : l.Canon) {ks : List Key} {t : LTracked} (hn : t.node = l)
    {t' : LTracked} (hm : t.markAll P ks = .ok (.ok t')) :
    (t'.subset kec).Canon ∧ SubsetOf kec (absL l) ks (absL (t'.subset kec)) := by
  have hn' : t'.node = l := by rw [LTracked.markAll_node P ks t t' hm, hn]
  have hv := LTracked.subset_view (kec := kec) t'
  rw [hn'] at hv
  refine ⟨hv.canon hc, hv.elided hc, fun k hk q hq => ?_⟩
  rw [LTracked.touch_agree P kec t' k q (LTracked.markAll_touch P ks hm k hk) hq, hn']

theorem subsetsL_spec {l : LNode} (hc : l.Canon) : ∀ (kss : List (List Key)) (t : LTracked),
    t.node = l → (P.overflowChecks = true → ∀ ks ∈ kss, ∀ k ∈ ks, PathOK (absL l) k) →
    (∃ kss₁ ks kss₂ r, kss = kss₁ ++ ks :: kss₂ ∧ (∀ ks' ∈ kss₁, NoErr (absL l) ks') ∧
      FirstErr (absL l) ks r ∧ subsetsL P kec t kss = .ok (.error r)) ∨
    ((∀ ks ∈ kss, NoErr (absL l) ks) ∧ ∃ ls, subsetsL P kec t kss = .ok (.ok ls) ∧
      (∀ l' ∈ ls, l'.Canon) ∧ List.Forall₂ (SubsetOf kec (absL l)) kss (ls.map absL)) := by
  intro kss
  induction kss with
  | nil => intro t _ _; exact .inr ⟨by simp, [], rfl, by simp, .nil⟩
  | cons ks kss ih =>
    intro t hn hk
    rcases LTracked.markAll_spec P ks t (by rw [hn]; exact hc)
      (fun hP k hk' => by rw [hn]; exact hk hP ks (by simp) k hk') with ⟨r, h1, h2⟩ | ⟨h1, t', h2⟩
    · rw [hn] at h1
      exact .inl ⟨[], ks, kss, r, rfl, by simp, h1, by simp only [subsetsL, h2, R_bind_ok]; rfl⟩
    · rw [hn] at h1
      have hn' : t'.reset.node = l := by
        rw [LTracked.reset_node, LTracked.markAll_node P ks t t' h2, hn]
      rcases ih t'.reset hn' (fun hP ks' h => hk hP ks' (List.mem_cons_of_mem _ h)) with
        ⟨a, b, c, r, rfl, h3, h4, h5⟩ | ⟨h3, ls, h4, h5, h6⟩
      · refine .inl ⟨ks :: a, b, c, r, rfl, ?_, h4, by simp only [subsetsL, h2, R_bind_ok, h5]; rfl⟩
        intro ks' hks'
        rcases List.mem_cons.1 hks' with rfl | h
        · exact h1
        · exact h3 ks' h
      · obtain ⟨g1, g2⟩ := subset_spec (kec := kec) hc hn h2
        refine .inr ⟨?_, t'.subset kec :: ls, by simp only [subsetsL, h2, R_bind_ok, h4]; rfl, ?_, ?_⟩
        · intro ks' hks'
          rcases List.mem_cons.1 hks' with rfl | h
          · exact h1
          · exact h3 ks' h
        · intro l' hl'
          rcases List.mem_cons.1 hl' with rfl | h
          · exact g1
          · exact h5 l' h
        · exact .cons g2 h6

theorem supported_short {ms : List KMap} {c : Cmd} (h : Supported P ms c) : c.Short := by
  cases c with
  | fromIter xs => exact putsOK_short xs _ h
  | insert i k v => exact h.1
  | extend i xs => exact h.1
  | delete i k => exact h.1
  | get i k => exact h.1
  | subset i ks => exact h.1
  | subsets i kss => exact h.1
  | _ => trivial

end PSys

/-- Supported calls on canonical tries do what the specification says. -/
theorem plainExec_spec {P : Profile} {kec : Bytes → H256} {ls : List LNode} {c : Cmd}
    (h : ∀ l ∈ ls, l.Canon) (hs : Supported P (ls.map absL) c) :
    ∃ ls' o, plainExec P kec ls c = .ok (ls', o) ∧ Step kec (ls.map absL) c o (ls'.map absL) ∧
      ∀ l ∈ ls', l.Canon := by
  have hon : ∀ {i : Nat} {f : LNode → R (List LNode × Obs)} {g : KMap → Obs → List KMap → Prop},
      (∀ l, ls[i]? = some l → (ls.map absL)[i]? = some (absL l) → l.Canon →
        ∃ ls' o, f l = .ok (ls', o) ∧ g (absL l) o (ls'.map absL) ∧ ∀ l ∈ ls', l.Canon) →
      ∃ ls' o, onPlain ls i f = .ok (ls', o) ∧ onMap (ls.map absL) i g o (ls'.map absL) ∧
        ∀ l ∈ ls', l.Canon := by
    intro i f g hf
    have hg : (ls.map absL)[i]? = ls[i]?.map absL := List.getElem?_map ..
    cases hi : ls[i]? with
    | none =>
      rw [hi] at hg
      exact ⟨ls, .noHandle, by simp only [onPlain, hi], by simp [onMap, hg], h⟩
    | some l =>
      rw [hi] at hg
      obtain ⟨ls', o, h1, h2, h3⟩ := hf l hi hg (h l (List.mem_of_getElem? hi))
      exact ⟨ls', o, by simp only [onPlain, hi, h1], by simp only [onMap, hg]; exact h2, h3⟩
  have happ : ∀ {new : List LNode}, (∀ l ∈ new, l.Canon) → ∀ l ∈ ls ++ new, l.Canon := by
    intro new hn l hl
    rcases List.mem_append.1 hl with hl | hl
    · exact h l hl
    · exact hn l hl
  have hset : ∀ {i : Nat} {l' : LNode}, l'.Canon → ∀ l ∈ ls.set i l', l.Canon := by
    intro i l' hl' l hl
    rcases List.mem_or_eq_of_mem_set hl with hl | rfl
    · exact h l hl
    · exact hl'
  cases c with
  | new => exact ⟨_, _, rfl, ⟨rfl, by rw [List.map_append]; rfl⟩, happ (by simp [Canon])⟩
  | fromIter xs =>
    obtain ⟨l, h1, h2, h3⟩ := PSys.extendL_spec xs .empty trivial hs
    refine ⟨_, _, by simp only [plainExec, h1, R_bind_ok]; rfl, ⟨rfl, ?_⟩, happ (by simpa using h2)⟩
    rw [List.map_append, List.map_singleton, h3]; rfl
  | clone i =>
    simp only [plainExec, Step]
    exact hon fun l hi hm hc => ⟨_, _, rfl, ⟨rfl, by simp⟩, happ (by simpa using hc)⟩
  | insert i k v =>
    simp only [plainExec, Step]
    refine hon fun l hi hm hc => ?_
    obtain ⟨l1, h1, h2, _, h3, _⟩ := insert_abs v l k hc (hs.2 _ hm)
    refine ⟨_, _, by simp only [h1, R_bind_ok]; rfl, ⟨rfl, ?_⟩, hset h2⟩
    rw [← h3, List.map_set]
  | extend i xs =>
    simp only [plainExec, Step]
    refine hon fun l hi hm hc => ?_
    obtain ⟨l1, h1, h2, h3⟩ := PSys.extendL_spec xs l hc (hs.2 _ hm)
    refine ⟨_, _, by simp only [h1, R_bind_ok]; rfl, ⟨rfl, ?_⟩, hset h2⟩
    rw [← h3, List.map_set]
  | delete i k =>
    simp only [plainExec, Step]
    refine hon fun l hi hm hc => ?_
    obtain ⟨l1, h1, h2, h3⟩ := delete_abs hc (hs.2 _ hm).1
    rw [← deleteA_eq (hc.bound (hs.2 _ hm).2)] at h1
    refine ⟨_, _, by simp only [h1, R_bind_ok]; rfl, ⟨rfl, ?_⟩, hset h2⟩
    rw [← h3, List.map_set]
  | get i k =>
    simp only [plainExec, Step]
    refine hon fun l hi hm hc => ?_
    have h1 := get_abs P l k hc (hs.2 _ hm)
    exact ⟨_, _, by simp only [h1, R_bind_ok]; rfl, ⟨rfl, rfl⟩, h⟩
  | hash i =>
    simp only [plainExec, Step]
    refine hon fun l hi hm hc => ⟨_, _, rfl, ⟨⟨_, items_lists l, ?_⟩, rfl⟩, h⟩
    rw [rootHash_spec kec hc (items_lists l)]
  | items i =>
    simp only [plainExec, Step]
    exact hon fun l hi hm hc =>
      ⟨_, _, by rw [itemsA_eq (hc.bound (hs _ hm)), R_bind_ok]; rfl,
        ⟨⟨_, items_lists l, items_ordered l [], rfl⟩, rfl⟩, h⟩
  | eq i j =>
    simp only [plainExec, Step]
    refine hon fun l hi hm hc => hon fun l' hj hm' hc' =>
      ⟨_, _, rfl, ⟨⟨_, rfl, ?_⟩, rfl⟩, h⟩
    simp only [decide_eq_true_eq]
    exact ⟨fun e => by rw [e], canon_unique l l' hc hc'⟩
  | subset i ks =>
    simp only [plainExec, Step]
    refine hon fun l hi hm hc => ?_
    rcases LTracked.markAll_spec P ks (LTracked.new l) (by rw [LTracked.node_new]; exact hc)
      (fun hP => by rw [LTracked.node_new]; exact hs.2 hP _ hm) with ⟨r, h1, h2⟩ | ⟨h1, t', h2⟩
    · rw [LTracked.node_new] at h1
      exact ⟨_, _, by simp only [h2, R_bind_ok]; rfl, .inl ⟨r, h1, rfl, rfl⟩, h⟩
    · rw [LTracked.node_new] at h1
      obtain ⟨g1, g2⟩ := PSys.subset_spec (kec := kec) hc (LTracked.node_new l) h2
      exact ⟨_, _, by simp only [h2, R_bind_ok]; rfl, .inr ⟨h1, _, g2, rfl, by simp⟩,
        happ (by simpa using g1)⟩
  | subsets i kss =>
    simp only [plainExec, Step]
    refine hon fun l hi hm hc => ?_
    rcases PSys.subsetsL_spec (P := P) (kec := kec) hc kss (LTracked.new l) (LTracked.node_new l)
      (fun hP => hs.2 hP _ hm) with ⟨x, y, z, r, rfl, h1, h2, h3⟩ | ⟨h1, ls, h2, h3, h4⟩
    · exact ⟨_, _, by simp only [h3, R_bind_ok]; rfl, .inl ⟨x, y, z, r, rfl, h1, h2, rfl, rfl⟩, h⟩
    · exact ⟨_, _, by simp only [h2, R_bind_ok]; rfl, .inr ⟨h1, _, h4, rfl, by simp⟩, happ h3⟩

end EthTrie
