import Verif.Spec.Rebuild
import Verif.Trie.CleanExact
import Verif.Trie.UndoExact
import Verif.Sys.Spec
import Verif.Spec.Order

/-!
# Lemmas: inserting the entries of a trie into an empty one
-/

namespace EthTrie

open Spec KMap LNode

namespace LNode

/-- Nothing is stored below a hash. -/
theorem hash_below : ∀ {l : LNode} {q : Key} {h : H256}, absL l q = some (.hash h) →
    ¬ Below (absL l) q := by
  intro l
  induction l with
  | empty => intro q _ h; cases h
  | hash x =>
    rintro q h e ⟨d, r, h1⟩
    simp [absL_hash] at h1
  | leaf n w =>
    intro q h e
    rw [absL_leaf] at e
    split at e <;> cases e
  | ext n c ih =>
    intro q h e hb
    obtain ⟨u, rfl, _⟩ := absL_ext_some (by rw [e]; simp)
    exact ih (by simpa using e) (by rw [← absL_ext_sub n c]; exact below_sub.2 hb)
  | branch cs w ih =>
    intro q h e hb
    cases q with
    | nil =>
      rw [absL_branch_nil] at e
      split at e <;> cases e
    | cons d q =>
      obtain ⟨d', r, h1⟩ := hb
      exact ih d (q := q) (h := h) e ⟨d', r, h1⟩

end LNode

/-- What holds of the contents of canonical tries: nothing is stored below hashes and empty values. -/
structure KMap.Sound (m : KMap) : Prop where
  hash : ∀ q h, m q = some (.hash h) → ¬ m.Below q
  nil : ∀ q, m q = some (.val []) → ¬ m.Below q

theorem KMap.Sound.of_canon {l : LNode} (hc : l.Canon) : (absL l).Sound :=
  ⟨fun _ _ h => hash_below h, fun _ h => hc.empty_val h⟩

/-- Some of the entries. -/
def KMap.Part (c m : KMap) : Prop := ∀ q, c q ≠ none → c q = m q

namespace KMap

variable {m c : KMap} {k : Key} {v : ValOrHash}

theorem below_of_prefix {q r : Key} (h : q <+: r) (hne : q ≠ r) (hr : m r ≠ none) : m.Below q := by
  obtain ⟨s, rfl⟩ := h
  cases s with
  | nil => simp at hne
  | cons d s => exact ⟨d, s, hr⟩

theorem Part.get (h : c.Part m) {q : Key} {x : ValOrHash} (e : c q = some x) : m q = some x := by
  rw [← h q (by rw [e]; simp), e]

theorem Part.ne (h : c.Part m) {q : Key} (e : c q ≠ none) : m q ≠ none := by
  rw [← h q e]; exact e

theorem Part.below (h : c.Part m) (hb : c.Below k) : m.Below k := by
  obtain ⟨d, r, h1⟩ := hb
  exact ⟨d, r, h.ne h1⟩

theorem Part.put (h : c.Part m) (hm : m k = some v) : (c.put k v).Part m := by
  intro q hq
  unfold KMap.put at *
  by_cases e : q = k
  · rw [if_pos e, e, hm]
  · rw [if_neg e] at hq ⊢; exact h q hq

/-- The next entry can be inserted unless its key ends inside a run. -/
theorem Part.insertOK (h : c.Part m) (hS : m.Sound) (hm : m k = some v) (hk : c k = none)
    (hi : ¬ c.EndsInside k) : InsertOK c k v := by
  have hne : m k ≠ none := by rw [hm]; simp
  refine ⟨fun q x hq hp => ?_, fun q hq hp => ?_, fun hb e => ?_, fun x _ => ?_, fun x e => ?_⟩
  · refine hS.hash q x (h.get hq) (below_of_prefix hp ?_ hne)
    rintro rfl; rw [hk] at hq; cases hq
  · by_contra hn
    exact hS.nil q (h.get hq) (below_of_prefix hp hn hne)
  · exact hS.nil k (by rw [hm, e]) (h.below hb)
  · by_contra hn
    simp only [not_or, not_not] at hn
    exact hi ⟨hn.1, hn.2.1, hn.2.2.1, hn.2.2.2⟩
  · exact ⟨hk, fun hb => hS.hash k x (by rw [hm, e]) (h.below hb)⟩

theorem endsInside_congr {m' : KMap} (h0 : m k = none) (h0' : m' k = none)
    (h : ∀ d r, m (k ++ d :: r) = m' (k ++ d :: r)) : m.EndsInside k ↔ m'.EndsInside k := by
  have e : m.sub k = m'.sub k := by
    funext q
    cases q with
    | nil => simp only [KMap.sub, List.append_nil, h0, h0']
    | cons d r => exact h d r
  have a := endsInside_sub (m := m) (n := k) (k := [])
  have b := endsInside_sub (m := m') (n := k) (k := [])
  rw [List.append_nil] at a b
  rw [← a, ← b, e]

theorem erase_self : m.erase k k = none := by simp [erase]

theorem erase_ext (d : Fin 16) (r : Key) : m.erase k (k ++ d :: r) = m (k ++ d :: r) := by
  simp [erase]

end KMap

theorem Spec.Before.not_prefix : ∀ {a b : Key}, Before a b → ¬ a <+: b
  | _ :: _, [], _, h => by simp at h
  | d :: a, e :: b, h, hp => by
    rw [List.cons_prefix_cons] at hp
    simp only [Before] at h
    rcases h with h | ⟨_, h⟩
    · exact absurd hp.1 (ne_of_lt h)
    · exact h.not_prefix hp.2
  | [], _, h, _ => by simp [Before] at h

theorem Spec.Before.ext (k : Key) (d : Fin 16) (r : Key) : Before (k ++ d :: r) k := by
  have := (Before.append_iff k (d :: r) []).2 (by simp [Before])
  rwa [List.append_nil] at this

open KMap

/-- Entries still to come, in the order of iteration; `c` has those that came before. -/
structure Tail (m c : KMap) (B : Entries) : Prop where
  part : c.Part m
  ord : Ordered B
  mem : ∀ x ∈ B, m x.1 = some x.2 ∧ c x.1 = none
  all : ∀ k v, m k = some v → c k = some v ∨ (k, v) ∈ B

namespace Tail

variable {m c : KMap} {k : Key} {v : ValOrHash} {B : Entries}

theorem ext (h : Tail m c ((k, v) :: B)) (d : Fin 16) (r : Key) :
    c (k ++ d :: r) = m (k ++ d :: r) := by
  cases e : m (k ++ d :: r) with
  | none =>
    by_contra hn
    exact h.part.ne hn e
  | some x =>
    rcases h.all _ _ e with h1 | h1
    · exact h1
    · have hb := Before.ext k d r
      rcases List.mem_cons.1 h1 with h1 | h1
      · exact absurd (congrArg (fun y => y.1.length) h1) (by simp)
      · have := (List.pairwise_cons.1 h.ord).1 _ h1
        exact absurd (this.trans hb) (Before.irrefl _)

theorem inside (h : Tail m c ((k, v) :: B)) : c.EndsInside k ↔ (m.erase k).EndsInside k :=
  endsInside_congr (h.mem _ List.mem_cons_self).2 erase_self fun d r => by rw [erase_ext, h.ext]

theorem next (h : Tail m c ((k, v) :: B)) : Tail m (c.put k v) B := by
  obtain ⟨h1, h2⟩ := List.pairwise_cons.1 h.ord
  refine ⟨h.part.put (h.mem _ List.mem_cons_self).1, h2, fun x hx => ?_, fun q w hq => ?_⟩
  · refine ⟨(h.mem x (List.mem_cons_of_mem _ hx)).1, ?_⟩
    have : x.1 ≠ k := by
      intro e
      have := h1 x hx
      rw [e] at this
      exact Before.irrefl _ this
    rw [put, if_neg this]
    exact (h.mem x (List.mem_cons_of_mem _ hx)).2
  · by_cases e : q = k
    · left
      rw [put, if_pos e, ← hq, e, (h.mem _ List.mem_cons_self).1]
    · rw [put, if_neg e]
      rcases h.all q w hq with h3 | h3
      · exact .inl h3
      · rcases List.mem_cons.1 h3 with h3 | h3
        · cases h3; exact absurd rfl e
        · exact .inr h3

theorem done (h : Tail m c []) : c = m := by
  funext q
  by_contra hn
  cases e : m q with
  | none => exact h.part.ne (fun h0 => hn (by rw [h0, e])) e
  | some x =>
    rcases h.all q x e with h1 | h1
    · exact hn (by rw [h1, e])
    · cases h1

/-- In the order of iteration. -/
theorem putsOK (hS : m.Sound) (hl : ∀ q, m q ≠ none → q.length ≤ 127) (hR : m.Collectable) :
    ∀ {B : Entries} {c : KMap}, Tail m c B → c.PutsOK B ∧ c.putAll B = m := by
  intro B
  induction B with
  | nil => intro c h; exact ⟨trivial, h.done⟩
  | cons x B ih =>
    obtain ⟨k, v⟩ := x
    intro c h
    have hk := h.mem _ List.mem_cons_self
    have hne : m k ≠ none := by rw [hk.1]; simp
    have h1 := h.part.insertOK hS hk.1 hk.2 fun hi => hR k hne (h.inside.1 hi)
    exact ⟨⟨hl k hne, h1, (ih h.next).1⟩, (ih h.next).2⟩

end Tail

/-- After an entry has gone astray: nothing is stored under its key `k`, and what extends `k` extends `t`. -/
structure Astray (m c : KMap) (k t : Key) : Prop where
  absent : c k = none
  le : k <+: t
  ne : k ≠ t
  run : ∀ r, c r ≠ none → k <+: r → t <+: r
  nil : ∀ q, c q = some (.val []) → m q = some (.val [])
  ext : ∀ q, c q ≠ none → ∃ r, q <+: r ∧ m r ≠ none

theorem forks_run {c : KMap} {a t : Key} (h : c.Forks a)
    (ht : ∀ r, c r ≠ none → a <+: r → t <+: r) (ha : a <+: t) : a = t := by
  obtain ⟨d, e, r, s, hne, h1, h2⟩ := h
  obtain ⟨u, rfl⟩ := ha
  cases u with
  | nil => simp
  | cons x u =>
    have a1 := ht _ h1 (List.prefix_append _ _)
    have a2 := ht _ h2 (List.prefix_append _ _)
    rw [List.prefix_append_right_inj, List.cons_prefix_cons] at a1 a2
    exact absurd (a1.1.symm.trans a2.1) hne

theorem stored_none {c : KMap} {t q : Key} {v : ValOrHash} (h : c q = none) (hne : q ≠ t) :
    c.stored t v q = none := by
  unfold stored
  rw [if_neg hne]
  split
  · rfl
  · exact h

theorem stored_ne {c : KMap} {t q : Key} {v : ValOrHash} (h : c.stored t v q ≠ none) :
    q = t ∨ c q ≠ none := by
  by_cases e : q = t
  · exact .inl e
  · exact .inr fun h0 => h (stored_none h0 e)

theorem stored_val_nil {c : KMap} {t q : Key} {v : ValOrHash} (h : c.stored t v q = some (.val [])) :
    (q = t ∧ v = .val []) ∨ c q = some (.val []) := by
  unfold stored at h
  by_cases e : q = t
  · rw [if_pos e] at h
    split at h
    · cases h
    · exact .inl ⟨e, by simpa using h⟩
  · rw [if_neg e] at h
    split at h
    · cases h
    · exact .inr h

/-- The entries after which the contents `c` come: keys with the values of `m`. -/
theorem stored_inv {m c : KMap} {k t : Key} {v : ValOrHash} (hS : m.Sound) (hm : m k = some v)
    (hnil : ∀ q, c q = some (.val []) → m q = some (.val []))
    (hext : ∀ q, c q ≠ none → ∃ r, q <+: r ∧ m r ≠ none) (hL : Lands c k t) :
    InsertClean c t v ∧ (∀ q, c.stored t v q = some (.val []) → m q = some (.val [])) ∧
      ∀ q, c.stored t v q ≠ none → ∃ r, q <+: r ∧ m r ≠ none := by
  have hne : m k ≠ none := by rw [hm]; simp
  have hkt : k <+: t := by
    rcases hL with ⟨_, rfl⟩ | ⟨_, h, _⟩
    · exact List.prefix_rfl
    · exact h
  have hbel : ∀ a, c.Below a → m.Below a := by
    rintro a ⟨d, r, h⟩
    obtain ⟨r', h1, h2⟩ := hext _ h
    refine below_of_prefix ((List.prefix_append a (d :: r)).trans h1) ?_ h2
    rintro rfl
    exact absurd h1.length_le (by simp)
  have hv : v = .val [] → t = k ∧ ¬ c.Below t := by
    intro e
    have hb : ¬ c.Below k := fun hb => hS.nil k (by rw [hm, e]) (hbel k hb)
    rcases hL with ⟨_, rfl⟩ | ⟨h, _⟩
    · exact ⟨rfl, hb⟩
    · exact absurd h.2.1 hb
  refine ⟨⟨fun q hq hp => ?_, fun e hb => absurd hb (hv e).2⟩, fun q hq => ?_, fun q hq => ?_⟩
  · rcases List.prefix_or_prefix_of_prefix hp hkt with h1 | h1
    · by_cases e : q = k
      · subst e
        rcases hL with ⟨_, h2⟩ | ⟨h2, _⟩
        · exact h2.symm
        · rw [h2.1] at hq; cases hq
      · exact absurd (below_of_prefix h1 e hne) (hS.nil q (hnil q hq))
    · rcases hL with ⟨_, rfl⟩ | ⟨_, _, h3, _⟩
      · exact hp.eq_of_length_le h1.length_le
      · exact hp.eq_of_length_le (h3 q (by rw [hq]; simp) h1).length_le
  · rcases stored_val_nil hq with ⟨rfl, e⟩ | h
    · rw [(hv e).1, hm, e]
    · exact hnil q h
  · rcases stored_ne hq with rfl | h
    · rcases hL with ⟨_, rfl⟩ | ⟨_, _, _, h4 | ⟨d, _, r, _, _, h4, _⟩⟩
      · exact ⟨_, List.prefix_rfl, hne⟩
      · exact hext _ h4
      · obtain ⟨r', h5, h6⟩ := hext _ h4
        exact ⟨r', (List.prefix_append _ _).trans h5, h6⟩
    · exact hext q h

theorem Astray.insert {m c : KMap} {k₀ t₀ k t : Key} {v : ValOrHash} (h : Astray m c k₀ t₀)
    (hS : m.Sound) (hm : m k = some v) (hk : ¬ k₀ <+: k) (hL : Lands c k t) :
    InsertClean c t v ∧ Astray m (c.stored t v) k₀ t₀ := by
  obtain ⟨h1, h2, h3⟩ := stored_inv hS hm h.nil h.ext hL
  have hrun : k₀ <+: t → t₀ <+: t := by
    intro hp
    rcases hL with ⟨_, rfl⟩ | ⟨_, hkt, hall, hst⟩
    · exact absurd hp hk
    · rcases hst with hst | hst
      · exact h.run t hst hp
      · have hr : ∀ r, c r ≠ none → t <+: r → t₀ <+: r := fun r hr hl => h.run r hr (hp.trans hl)
        obtain ⟨d, e, r, s, hne, g1, g2⟩ := hst
        have a := hr _ g1 (List.prefix_append _ _)
        rcases List.prefix_or_prefix_of_prefix a (List.prefix_append t (d :: r)) with b | b
        · exact b
        · exact (forks_run ⟨d, e, r, s, hne, g1, g2⟩ hr b) ▸ List.prefix_rfl
  have hnt : k₀ ≠ t := by
    rintro rfl
    exact h.ne (h.le.eq_of_length_le (hrun List.prefix_rfl).length_le)
  refine ⟨h1, stored_none h.absent hnt, h.le, h.ne, fun r hr hp => ?_, h2, h3⟩
  rcases stored_ne hr with rfl | hr
  · exact hrun hp
  · exact h.run r hr hp

theorem insert_stored {l l' : LNode} {k : Key} {v : ValOrHash} (hc : l.Canon) (h : l.insert k v = .ok l') :
    ∃ t, Lands (absL l) k t ∧ absL l' = (absL l).stored t v ∧ (InsertClean (absL l) t v → l'.Canon) := by
  obtain ⟨t, h1, h2⟩ := insert_exact v l k hc
  rw [h] at h2
  exact ⟨t, h1, insertExact_ok h2.symm, (insert_clean v l k t l' hc h1 h).1.2⟩

theorem Astray.extend {m : KMap} (hS : m.Sound) {k t : Key} : ∀ {B : Entries} {l l' : LNode}, l.Canon →
    Astray m (absL l) k t → (∀ x ∈ B, m x.1 = some x.2 ∧ ¬ k <+: x.1) → PSys.extendL l B = .ok l' →
    absL l' k = none := by
  intro B
  induction B with
  | nil => rintro l l' _ h _ ⟨⟩; exact h.absent
  | cons x B ih =>
    obtain ⟨q, v⟩ := x
    intro l l' hc h hB he
    simp only [PSys.extendL] at he
    cases h1 : l.insert q v with
    | error e => rw [h1] at he; cases he
    | ok l1 =>
      rw [h1, R_bind_ok] at he
      obtain ⟨t', g1, g2, g3⟩ := insert_stored hc h1
      have hx := hB _ List.mem_cons_self
      obtain ⟨g4, g5⟩ := h.insert hS hx.1 hx.2 g1
      exact ih (g3 g4) (by rw [g2]; exact g5) (fun y hy => hB y (List.mem_cons_of_mem _ hy)) he

/-- If the entries, inserted in the order of iteration, all end up where they should, then no key ends
inside a run. -/
theorem Tail.collectable {m : KMap} (hS : m.Sound) : ∀ {B : Entries} {l l' : LNode}, l.Canon →
    Tail m (absL l) B → PSys.extendL l B = .ok l' → absL l' = m →
    ∀ x ∈ B, ¬ (m.erase x.1).EndsInside x.1 := by
  intro B
  induction B with
  | nil => intro l l' _ _ _ _ x hx; cases hx
  | cons x B ih =>
    obtain ⟨k, v⟩ := x
    intro l l' hc h he hl
    have hk := h.mem _ List.mem_cons_self
    by_cases hi : (absL l).EndsInside k
    · exfalso
      simp only [PSys.extendL] at he
      cases h1 : l.insert k v with
      | error e => rw [h1] at he; cases he
      | ok l1 =>
        rw [h1, R_bind_ok] at he
        obtain ⟨t, g1, g2, g3⟩ := insert_stored hc h1
        obtain ⟨g4, g5, g6⟩ := stored_inv hS hk.1 (fun q hq => h.part.get hq)
          (fun q hq => ⟨q, List.prefix_rfl, h.part.ne hq⟩) g1
        have hL := g1
        rcases g1 with ⟨g1, _⟩ | ⟨_, g7, g8, g9⟩
        · exact g1 hi
        · have hne : k ≠ t := by
            rintro rfl
            rcases g9 with g9 | g9
            · exact g9 hi.1
            · exact hi.2.2.1 g9
          have hA : Astray m (absL l1) k t := by
            rw [g2]
            refine ⟨stored_none hi.1 hne, g7, hne, fun r hr hp => ?_, g5, g6⟩
            rcases stored_ne hr with rfl | hr
            · exact List.prefix_rfl
            · exact g8 r hr hp
          have := hA.extend hS (g3 g4) (fun y hy => ⟨(h.mem y (List.mem_cons_of_mem _ hy)).1,
            ((List.pairwise_cons.1 h.ord).1 y hy).not_prefix⟩) he
          rw [hl, hk.1] at this
          cases this
    · have hok := h.part.insertOK hS hk.1 hk.2 hi
      obtain ⟨l1, g1, g2, _, g3, _⟩ := insert_abs v l k hc hok
      simp only [PSys.extendL, g1, R_bind_ok] at he
      intro y hy
      rcases List.mem_cons.1 hy with rfl | hy
      · exact fun e => hi (h.inside.2 e)
      · exact ih g2 (by rw [g3]; exact h.next) he hl y hy

/-- Entries in reverse order: nothing that extends the next key is stored yet. -/
theorem putsOK_reverse {m : KMap} (hS : m.Sound) (hl : ∀ q, m q ≠ none → q.length ≤ 127) :
    ∀ {B : Entries} {c : KMap}, c.Part m → (B.Pairwise fun x y => Before y.1 x.1) →
    (∀ x ∈ B, m x.1 = some x.2 ∧ ∀ q, c q ≠ none → Before x.1 q) →
    (∀ k v, m k = some v → c k = some v ∨ (k, v) ∈ B) → c.PutsOK B ∧ c.putAll B = m := by
  intro B
  induction B with
  | nil =>
    intro c h _ _ ha
    exact ⟨trivial, Tail.done ⟨h, .nil, by simp, ha⟩⟩
  | cons x B ih =>
    obtain ⟨k, v⟩ := x
    intro c h ho hB ha
    obtain ⟨o1, o2⟩ := List.pairwise_cons.1 ho
    have hk := hB _ List.mem_cons_self
    have hkn : c k = none := by
      by_contra hn
      exact Before.irrefl _ (hk.2 k hn)
    have hne : m k ≠ none := by rw [hk.1]; simp
    have h1 := h.insertOK hS hk.1 hkn fun hi => by
      obtain ⟨d, r, hb⟩ := hi.2.1
      exact Before.irrefl _ ((hk.2 _ hb).trans (Before.ext k d r))
    have hb : ∀ y ∈ B, m y.1 = some y.2 ∧ ∀ q, c.put k v q ≠ none → Before y.1 q := by
      refine fun y hy => ⟨(hB y (List.mem_cons_of_mem _ hy)).1, fun q hq => ?_⟩
      by_cases e : q = k
      · rw [e]; exact o1 y hy
      · rw [put, if_neg e] at hq
        exact (hB y (List.mem_cons_of_mem _ hy)).2 q hq
    have hc : ∀ q w, m q = some w → c.put k v q = some w ∨ (q, w) ∈ B := by
      intro q w hq
      by_cases e : q = k
      · left
        rw [put, if_pos e, ← hq, e, hk.1]
      · rw [put, if_neg e]
        rcases ha q w hq with h3 | h3
        · exact .inl h3
        · rcases List.mem_cons.1 h3 with h3 | h3
          · cases h3; exact absurd rfl e
          · exact .inr h3
    have h2 := ih (h.put hk.1) o2 hb hc
    exact ⟨⟨hl k hne, h1, h2.1⟩, h2.2⟩

end EthTrie
