import Verif.Trie.CleanExact
import Verif.Trie.Sim2

/-!
# The exact outcome of deletions with keys of more than 64 nibbles
-/

namespace EthTrie
namespace LNode

open Spec KMap

/-- The key departs from a piece of more than 64 nibbles. -/
def Off : LNode → Key → Prop
  | .empty, _ => False
  | .hash _, _ => False
  | .branch cs _, k => match k with
    | [] => False
    | d :: k' => Off (cs d) k'
  | .ext n c, k => if n <+: k then Off c (k.drop n.length) else ¬ k <+: n ∧ 64 < n.length
  | .leaf n _, k => ¬ n <+: k ∧ ¬ k <+: n ∧ 64 < n.length

theorem off_ext_append {n : Key} {c : LNode} {k : Key} : Off (.ext n c) (n ++ k) ↔ Off c k := by
  rw [Off, if_pos (List.prefix_append n k), List.drop_left]

/-- Keys that extend a branch or hash node all continue in the same way only trivially. -/
theorem Canon.no_common {c : LNode} (hc : c.Canon) (hb : c.isBH) {y : Key} (hy : y ≠ [])
    (h : ∀ q, absL c q ≠ none → y <+: q) : False := by
  cases c with
  | empty => exact hb
  | leaf => exact hb
  | ext => exact hb
  | hash x => exact hy (List.prefix_nil.1 (h [] (by simp [absL_hash])))
  | branch cs v =>
    obtain ⟨d, y, rfl⟩ := List.exists_cons_of_ne_nil hy
    have key : ∀ i, cs i ≠ .empty → i = d := fun i hi => by
      obtain ⟨q, hq⟩ := (hc.1 i).exists_key hi
      have := h (i :: q) hq
      rw [List.cons_prefix_cons] at this
      exact this.1.symm
    rcases hc.2 with ⟨i, j, hij, hi, hj⟩ | ⟨hv, -⟩
    · exact hij ((key i hi).trans (key j hj).symm)
    · have := h [] (by simp [hv])
      simp at this

theorem off_longRun : ∀ {l : LNode} {k : Key}, l.Canon → l.Off k → LongRun (absL l) k := by
  intro l
  induction l with
  | empty => intro k _ h; exact h.elim
  | hash => intro k _ h; exact h.elim
  | leaf n v =>
    intro k _ ⟨h1, h2, h3⟩
    refine ⟨[], n, h3, List.nil_prefix, h1, h2, ⟨n, by simp [absL_leaf], List.prefix_rfl⟩, fun q hq _ => ?_⟩
    rw [absL_leaf] at hq
    by_cases e : q = n
    · rw [e]; exact List.prefix_rfl
    · rw [if_neg e] at hq; exact absurd rfl hq
  | branch cs v ih =>
    intro k hc h
    cases k with
    | nil => exact h.elim
    | cons d k =>
      obtain ⟨a, y, h1, h2, h3, h4, ⟨q, h5, h6⟩, h7⟩ := ih d (hc.1 d) h
      refine ⟨d :: a, y, h1, by simpa using h2, by simpa using h3, by simpa using h4,
        ⟨d :: q, h5, by simpa using h6⟩, fun q hq hp => ?_⟩
      cases q with
      | nil => simp at hp
      | cons e q =>
        rw [List.cons_prefix_cons] at hp
        obtain ⟨rfl, hp⟩ := hp
        simpa using h7 q hq hp
  | ext n c ih =>
    intro k hc h
    by_cases hp : n <+: k
    · obtain ⟨k, rfl⟩ := hp
      rw [off_ext_append] at h
      obtain ⟨a, y, h1, h2, h3, h4, ⟨q, h5, h6⟩, h7⟩ := ih hc.2.2 h
      refine ⟨n ++ a, y, h1, ?_, ?_, ?_, ⟨n ++ q, ?_, ?_⟩, fun q hq hp => ?_⟩
      · rwa [List.prefix_append_right_inj]
      · rwa [List.append_assoc, List.prefix_append_right_inj]
      · rwa [List.append_assoc, List.prefix_append_right_inj]
      · rwa [absL_ext_append]
      · rwa [List.append_assoc, List.prefix_append_right_inj]
      · obtain ⟨r, rfl, hr⟩ := absL_ext_some hq
        rw [List.prefix_append_right_inj] at hp
        rw [List.append_assoc, List.prefix_append_right_inj]
        exact h7 r hr hp
    · rw [Off, if_neg hp] at h
      obtain ⟨q, hq⟩ := hc.2.2.exists_key (by rintro rfl; exact hc.2.1)
      refine ⟨[], n, h.2, List.nil_prefix, hp, h.1, ⟨n ++ q, by simpa using hq, List.prefix_append _ _⟩,
        fun q hq _ => ?_⟩
      obtain ⟨r, rfl, -⟩ := absL_ext_some hq
      exact List.prefix_append _ _

theorem longRun_off : ∀ {l : LNode} {k : Key}, l.Canon → LongRun (absL l) k → l.Off k := by
  intro l
  induction l with
  | empty => rintro k _ ⟨a, y, h1, h2, h3, h4, ⟨q, h5, h6⟩, h7⟩; exact absurd rfl h5
  | hash x =>
    rintro k _ ⟨a, y, h1, h2, h3, h4, ⟨q, h5, h6⟩, h7⟩
    rw [absL_hash] at h5
    by_cases e : q = []
    · subst e
      have := List.prefix_nil.1 h6
      rw [this] at h3; exact absurd List.nil_prefix h3
    · rw [if_neg e] at h5; exact absurd rfl h5
  | leaf n v =>
    rintro k _ ⟨a, y, h1, h2, h3, h4, ⟨q, h5, h6⟩, h7⟩
    rw [absL_leaf] at h5
    by_cases e : q = n
    · subst e
      refine ⟨fun h => h3 (h6.trans h), fun h => ?_, ?_⟩
      · rcases List.prefix_or_prefix_of_prefix h h6 with h | h
        · exact h4 h
        · exact h3 h
      · have := h6.length_le
        rw [List.length_append] at this; omega
    · rw [if_neg e] at h5; exact absurd rfl h5
  | branch cs v ih =>
    rintro k hc ⟨a, y, h1, h2, h3, h4, ⟨q, h5, h6⟩, h7⟩
    cases a with
    | nil =>
      exfalso
      refine hc.no_common trivial (y := y) (by rintro rfl; simp at h1) fun q hq => h7 q hq List.nil_prefix
    | cons d a =>
      cases k with
      | nil => simp at h2
      | cons e k =>
        rw [List.cons_prefix_cons] at h2
        obtain ⟨rfl, h2⟩ := h2
        refine ih d (hc.1 d) ⟨a, y, h1, h2, by simpa using h3, by simpa using h4, ?_, fun q hq hp => ?_⟩
        · cases q with
          | nil => simp at h6
          | cons e q =>
            rw [List.cons_append, List.cons_prefix_cons] at h6
            obtain ⟨rfl, h6⟩ := h6
            exact ⟨q, h5, h6⟩
        · simpa using h7 (d :: q) hq (by simpa using hp)
  | ext n c ih =>
    rintro k hc ⟨a, y, h1, h2, h3, h4, ⟨q, h5, h6⟩, h7⟩
    -- a run that begins above `c` ends above it
    have key : a <+: n → a ++ y <+: n := by
      intro ha
      obtain ⟨r, rfl, hr⟩ := absL_ext_some h5
      rcases List.prefix_or_prefix_of_prefix h6 (List.prefix_append n r) with h | h
      · exact h
      · obtain ⟨z, hz⟩ := h
        by_cases e : z = []
        · rw [← hz, e, List.append_nil]; exact List.prefix_rfl
        · exfalso
          refine hc.2.2.no_common hc.2.1 e fun q hq => ?_
          have := h7 (n ++ q) (by simpa using hq) (ha.trans (List.prefix_append _ _))
          rwa [← hz, List.prefix_append_right_inj] at this
    by_cases hp : n <+: k
    · rcases List.prefix_or_prefix_of_prefix h2 hp with h | h
      · exact absurd ((key h).trans hp) h3
      · obtain ⟨k, rfl⟩ := hp
        obtain ⟨a, rfl⟩ := h
        rw [off_ext_append]
        rw [List.prefix_append_right_inj] at h2
        rw [List.append_assoc, List.prefix_append_right_inj] at h3 h4
        obtain ⟨r, rfl, hr⟩ := absL_ext_some h5
        rw [List.append_assoc, List.prefix_append_right_inj] at h6
        refine ih hc.2.2 ⟨a, y, h1, h2, h3, h4, ⟨r, hr, h6⟩, fun q hq hp => ?_⟩
        have := h7 (n ++ q) (by simpa using hq) (by rwa [List.prefix_append_right_inj])
        rwa [List.append_assoc, List.prefix_append_right_inj] at this
    · rw [Off, if_neg hp]
      obtain ⟨r, rfl, hr⟩ := absL_ext_some h5
      refine ⟨fun h => ?_, ?_⟩
      · rcases List.prefix_or_prefix_of_prefix (h.trans (List.prefix_append n r)) h6 with h | h
        · exact h4 h
        · exact h3 h
      · rcases List.prefix_or_prefix_of_prefix ((List.prefix_append a y).trans h6)
          (List.prefix_append n r) with h | h
        · have := (key h).length_le
          rw [List.length_append] at this; omega
        · exact absurd (h.trans h2) hp

/-- Nothing extends a key that departs from a piece. -/
theorem Off.not_below : ∀ {l : LNode} {k q : Key}, l.Off k → absL l q ≠ none → ¬ k <+: q := by
  intro l
  induction l with
  | empty => intro k q h; exact h.elim
  | hash => intro k q h; exact h.elim
  | leaf n v =>
    intro k q h hq hp
    rw [absL_leaf] at hq
    by_cases e : q = n
    · subst e; exact h.2.1 hp
    · rw [if_neg e] at hq; exact hq rfl
  | branch cs v ih =>
    intro k q h hq hp
    cases k with
    | nil => exact h
    | cons d k =>
      cases q with
      | nil => simp at hp
      | cons e q =>
        rw [List.cons_prefix_cons] at hp
        obtain ⟨rfl, hp⟩ := hp
        exact ih d h hq hp
  | ext n c ih =>
    intro k q h hq hp
    obtain ⟨r, rfl, hr⟩ := absL_ext_some hq
    by_cases hn : n <+: k
    · obtain ⟨k, rfl⟩ := hn
      rw [off_ext_append] at h
      rw [List.prefix_append_right_inj] at hp
      exact ih h hr hp
    · rw [Off, if_neg hn] at h
      rcases List.prefix_or_prefix_of_prefix hp (List.prefix_append n r) with g | g
      · exact h.1 g
      · exact hn g

/-- Only leaves become empty. -/
theorem deleteRec_gone {l : LNode} {k : Key} {c : LNode} {x : Bytes}
    (h : l.deleteRec k = .ok (some (c, x))) (hc : c.isEmpty = true) : ∃ n v, l = .leaf n v := by
  have hc := isEmpty_iff.1 hc
  subst hc
  cases l with
  | empty => cases h
  | hash => cases h
  | leaf n v => exact ⟨n, v, rfl⟩
  | branch cs v =>
    cases k with
    | nil => cases h
    | cons d k =>
      exfalso
      simp only [deleteRec, R_bind_eq_ok] at h
      obtain ⟨o, -, h⟩ := h
      cases o with
      | none => cases h
      | some o =>
        simp only at h
        split at h
        · split at h <;> cases h
        · simp only [R_bind_eq_ok] at h
          obtain ⟨c', -, h⟩ := h
          cases h
  | ext n c =>
    exfalso
    simp only [deleteRec] at h
    split at h
    · simp only [R_bind_eq_ok] at h
      obtain ⟨o, -, h⟩ := h
      cases o with
      | none => cases h
      | some o =>
        simp only [R_bind_eq_ok] at h
        obtain ⟨r, h1, h⟩ := h
        cases h
        revert h1
        cases o.1 <;> simp [collapse]
    · cases h

/-- Collapsing an extension whose piece differs from the key. -/
theorem collapseA_off {n : Key} {c r : LNode} {k : Key} (h1 : ¬ n <+: k) (h2 : ¬ k <+: n)
    (h : collapse n c = .ok r) : (64 < n.length → r.Off k) ∧ (n.length ≤ 64 →
      (r.Off k → collapseA n c = .error .assertFailed) ∧ (¬ r.Off k → collapseA n c = .ok r)) := by
  have g1 : ∀ m, ¬ n ++ m <+: k := fun m h => h1 ((List.prefix_append n m).trans h)
  have g2 : ∀ m, ¬ k <+: n ++ m := fun m h => by
    rcases List.prefix_or_prefix_of_prefix h (List.prefix_append n m) with h | h
    · exact h2 h
    · exact h1 h
  cases c with
  | empty => cases h
  | hash x =>
    cases h
    have e : Off (.ext n (.hash x)) k ↔ 64 < n.length := by
      rw [Off, if_neg h1]; exact and_iff_right h2
    exact ⟨e.2, fun hn => ⟨fun h => absurd (e.1 h) (by omega), fun _ => rfl⟩⟩
  | branch cs v =>
    cases h
    have e : Off (.ext n (.branch cs v)) k ↔ 64 < n.length := by
      rw [Off, if_neg h1]; exact and_iff_right h2
    exact ⟨e.2, fun hn => ⟨fun h => absurd (e.1 h) (by omega), fun _ => rfl⟩⟩
  | ext m c =>
    cases h
    have e : Off (.ext (n ++ m) c) k ↔ 64 < n.length + m.length := by
      rw [Off, if_neg (g1 m), List.length_append]; exact and_iff_right (g2 m)
    rw [e]
    exact ⟨fun h => by omega, fun _ => ⟨fun h => if_neg (by omega), fun h => if_pos (by omega)⟩⟩
  | leaf m v =>
    cases h
    have e : Off (.leaf (n ++ m) v) k ↔ 64 < n.length + m.length := by
      rw [Off, List.length_append]
      exact ⟨fun h => h.2.2, fun h => ⟨g1 m, g2 m, h⟩⟩
    rw [e]
    exact ⟨fun h => by omega, fun _ => ⟨fun h => if_neg (by omega), fun h => if_pos (by omega)⟩⟩

/-- What `deleteRecA` and the collapse after it do. -/
def AOut (l : LNode) (k : Key) (l' : LNode) (x : Bytes) (r : LNode) : Prop :=
  (r.Off k → l.deleteRecA k = .error .assertFailed ∨
    l.deleteRecA k = .ok (some (l', x)) ∧ l'.tryCollapseA = .error .assertFailed) ∧
  (¬ r.Off k → l.deleteRecA k = .ok (some (l', x)) ∧ l'.tryCollapseA = .ok r)

theorem other_ne {cs : Fin 16 → LNode} {d i : Fin 16} (h : other cs d = some i) : i ≠ d := by
  have := List.find?_some h
  rintro rfl
  simp at this

theorem deleteRec_branch {cs : Fin 16 → LNode} {v : Bytes} {k : Key} {c : LNode} {x : Bytes}
    (h : (branch cs v).deleteRec k = .ok (some (c, x))) : (∃ cs' w, c = .branch cs' w) ∨
      ∃ d k' i, k = d :: k' ∧ i ≠ d ∧ c = .ext [i] (cs i) ∧
        (branch cs v).deleteRecA k = .ok (some (c, x)) := by
  cases k with
  | nil => cases h; exact .inl ⟨_, _, rfl⟩
  | cons d k =>
    simp only [deleteRec, R_bind_eq_ok] at h
    obtain ⟨o, ho, h⟩ := h
    cases o with
    | none => cases h
    | some o =>
      obtain ⟨c, y⟩ := o
      simp only at h
      split at h
      · rename_i hcc
        obtain ⟨n, w, hl⟩ := deleteRec_gone ho hcc.1
        have hA : (cs d).deleteRecA k = .ok (some (c, y)) := by
          rw [hl] at ho ⊢; exact ho
        split at h
        · rename_i i hi
          cases h
          refine .inr ⟨d, k, i, rfl, other_ne hi, rfl, ?_⟩
          simp only [deleteRecA, hA, R_bind_ok, if_pos hcc, hi]; rfl
        · cases h
      · simp only [R_bind_eq_ok] at h
        obtain ⟨c', -, h⟩ := h
        cases h
        exact .inl ⟨_, _, rfl⟩

theorem deleteRecA_off : ∀ {l : LNode} {k : Key} {l' : LNode} {x : Bytes} {r : LNode}, l.Canon →
    l.deleteRec k = .ok (some (l', x)) → l'.tryCollapse = .ok r → AOut l k l' x r := by
  intro l
  induction l with
  | empty => intro k l' x r _ h; cases h
  | hash => intro k l' x r _ h; cases h
  | leaf n v =>
    intro k l' x r _ h hr
    simp only [deleteRec] at h
    by_cases e : n = k
    · rw [if_pos e] at h
      cases h
      cases hr
      exact ⟨fun h => h.elim, fun _ => ⟨by simp [deleteRecA, e], rfl⟩⟩
    · rw [if_neg e] at h; cases h
  | branch cs v ih =>
    intro k l' x r hc h hr
    cases k with
    | nil =>
      cases h
      cases hr
      exact ⟨fun h => h.elim, fun _ => ⟨rfl, rfl⟩⟩
    | cons d k =>
      simp only [deleteRec, R_bind_eq_ok] at h
      obtain ⟨o, ho, h⟩ := h
      cases o with
      | none => cases h
      | some o =>
        obtain ⟨c, y⟩ := o
        simp only at h
        split at h
        · rename_i hcc
          obtain ⟨n, w, hl⟩ := deleteRec_gone ho hcc.1
          have hA : (cs d).deleteRecA k = .ok (some (c, y)) := by
            rw [hl] at ho ⊢; exact ho
          split at h
          · rename_i i hi
            cases h
            have hid := other_ne hi
            have hA' : (branch cs v).deleteRecA (d :: k) = .ok (some (.ext [i] (cs i), x)) := by
              simp only [deleteRecA, hA, R_bind_ok, if_pos hcc, hi]; rfl
            obtain ⟨-, g⟩ := collapseA_off (k := d :: k) (n := [i]) (by simpa using hid)
              (by simpa using fun h => absurd h.symm hid) hr
            obtain ⟨g1, g2⟩ := g (by simp)
            exact ⟨fun h => .inr ⟨hA', g1 h⟩, fun h => ⟨hA', g2 h⟩⟩
          · cases h
        · rename_i hcc
          simp only [R_bind_eq_ok] at h
          obtain ⟨c', hc', h⟩ := h
          cases h
          cases hr
          obtain ⟨i1, i2⟩ := ih d (hc.1 d) ho hc'
          have e : Off (branch (EthTrie.upd cs d c') v) (d :: k) ↔ c'.Off k := by
            simp [Off]
          rw [AOut, e]
          refine ⟨fun h => .inl ?_, fun h => ⟨?_, rfl⟩⟩
          · rcases i1 h with i1 | ⟨i1, i3⟩
            · simp only [deleteRecA, i1]; rfl
            · simp only [deleteRecA, i1, R_bind_ok, if_neg hcc, i3]; rfl
          · obtain ⟨i1, i3⟩ := i2 h
            simp only [deleteRecA, i1, R_bind_ok, if_neg hcc, i3]; rfl
  | ext n c ih =>
    intro k l' x r hc h hr
    simp only [deleteRec] at h
    split at h
    · rename_i hp
      simp only [R_bind_eq_ok] at h
      obtain ⟨o, ho, h⟩ := h
      cases o with
      | none => cases h
      | some o =>
        obtain ⟨c', y⟩ := o
        simp only [R_bind_eq_ok] at h
        obtain ⟨l1, h1, h⟩ := h
        cases h
        cases c with
        | empty => exact hc.2.1.elim
        | leaf => exact hc.2.1.elim
        | ext => exact hc.2.1.elim
        | hash => cases ho
        | branch cs v =>
          rcases deleteRec_branch ho with ⟨cs', w, rfl⟩ | ⟨d, k', i, hk, hid, rfl, hA⟩
          · cases h1
            cases hr
            obtain ⟨i1, i2⟩ := ih hc.2.2 ho rfl
            have e : Off (ext n (.branch cs' w)) k ↔ Off (.branch cs' w) (k.drop n.length) := by
              by_cases hn : n <+: k
              · rw [Off, if_pos hn]
              · have hk := hp.resolve_left hn
                have e0 : Off (ext n (.branch cs' w)) k ↔ ¬ k <+: n ∧ 64 < n.length := by
                  rw [Off, if_neg hn]
                rw [List.drop_eq_nil_of_le hk.length_le, e0]
                exact ⟨fun h => h.1 hk, fun h => h.elim⟩
            rw [AOut, e]
            refine ⟨fun h => .inl ?_, fun h => ⟨?_, rfl⟩⟩
            · rcases i1 h with i1 | ⟨i1, i3⟩
              · rw [deleteRecA, if_pos hp, i1]; rfl
              · cases i3
            · obtain ⟨i1, -⟩ := i2 h
              rw [deleteRecA, if_pos hp, i1]; rfl
          · have hn : n <+: k := by
              rcases hp with h | h
              · exact h
              · rw [List.drop_eq_nil_of_le h.length_le] at hk; cases hk
            obtain ⟨k, rfl⟩ := hn
            rw [List.drop_left] at hk hA
            subst hk
            cases h1
            obtain ⟨g1, g2⟩ := collapseA_off (k := n ++ d :: k') (n := n ++ [i])
              (by rw [List.prefix_append_right_inj]; simpa using hid)
              (by rw [List.prefix_append_right_inj]; simpa using fun h => absurd h.symm hid) hr
            have hd : (ext n (.branch cs v)).deleteRecA (n ++ d :: k') =
                if n.length + 1 ≤ 64 then .ok (some (.ext (n ++ [i]) (cs i), x)) else
                  .error .assertFailed := by
              rw [deleteRecA, if_pos (.inl (List.prefix_append _ _)), List.drop_left, hA]
              simp only [R_bind_ok, collapseA, List.length_singleton]
              split <;> rfl
            rw [List.length_append, List.length_singleton] at g1 g2
            rw [AOut, hd]
            by_cases hl : n.length + 1 ≤ 64
            · rw [if_pos hl]
              obtain ⟨g2, g3⟩ := g2 hl
              exact ⟨fun h => .inr ⟨rfl, g2 h⟩, fun h => ⟨rfl, g3 h⟩⟩
            · rw [if_neg hl]
              exact ⟨fun _ => .inl rfl, fun h => absurd (g1 (by omega)) h⟩
    · cases h

theorem lands_prefix {m : KMap} {k t : Key} (h : Lands m k t) : k <+: t := by
  rcases h with ⟨_, rfl⟩ | ⟨_, h, _⟩
  · exact List.prefix_rfl
  · exact h

/-- If nothing is deleted, nothing is put together. -/
theorem deleteRecA_none : ∀ {l : LNode} {k : Key}, l.Canon → (∀ y, l.deleteRec k ≠ .ok (some y)) →
    l.deleteRecA k = l.deleteRec k := by
  intro l
  induction l with
  | empty => intro k _ _; rfl
  | hash => intro k _ _; rfl
  | leaf => intro k _ _; rfl
  | branch cs v ih =>
    intro k hc h
    cases k with
    | nil => rfl
    | cons d k =>
      cases e : (cs d).deleteRec k with
      | error x =>
        have := ih d (hc.1 d) (k := k) (by rw [e]; simp)
        simp only [deleteRecA, deleteRec, this, e]; rfl
      | ok o =>
        cases o with
        | none =>
          have := ih d (hc.1 d) (k := k) (by rw [e]; simp)
          simp only [deleteRecA, deleteRec, this, e]
          rfl
        | some o =>
          obtain ⟨c, y⟩ := o
          by_cases hcc : c.isEmpty = true ∧ numNonEmpty cs ≤ 2
          · obtain ⟨n, w, hl⟩ := deleteRec_gone e hcc.1
            have hA : (cs d).deleteRecA k = .ok (some (c, y)) := by
              rw [hl] at e ⊢; exact e
            simp only [deleteRecA, deleteRec, hA, e, R_bind_ok, if_pos hcc]
          · obtain ⟨t, -, -, g⟩ := deleteRec_exact (cs d) k (hc.1 d)
            obtain ⟨r, g1, -⟩ := tryCollapse_extOccupied (g _ e c y rfl).1
            refine absurd ?_ (h (.branch (EthTrie.upd cs d r) v, y))
            simp only [deleteRec, e, R_bind_ok, if_neg hcc, g1]
            rfl
  | ext n c ih =>
    intro k hc h
    by_cases hp : n <+: k ∨ k <+: n
    · cases e : c.deleteRec (k.drop n.length) with
      | error x =>
        have := ih hc.2.2 (k := k.drop n.length) (by rw [e]; simp)
        simp only [deleteRecA, deleteRec, if_pos hp, this, e]; rfl
      | ok o =>
        cases o with
        | none =>
          have := ih hc.2.2 (k := k.drop n.length) (by rw [e]; simp)
          simp only [deleteRecA, deleteRec, if_pos hp, this, e]; rfl
        | some o =>
          obtain ⟨c', y⟩ := o
          cases hc' : collapse n c' with
          | error x =>
            have : c'.isEmpty = true := by
              revert hc'; cases c' <;> simp [collapse, isEmpty]
            obtain ⟨m, w, rfl⟩ := deleteRec_gone e this
            exact hc.2.1.elim
          | ok r =>
            refine absurd ?_ (h (r, y))
            simp only [deleteRec, if_pos hp, e, R_bind_ok, hc']
            rfl
    · simp only [deleteRecA, deleteRec, if_neg hp]

/-- The exact outcome of a deletion, for keys of any length. -/
theorem deleteA_exact {l : LNode} (k : Key) (hc : l.Canon) : ∃ t, Lands (absL l) k t ∧
    (l.deleteA k).map (fun r => (absL r.1, r.2)) = deleteLong (absL l) t := by
  obtain ⟨t, h1, h2⟩ := delete_exact k hc
  refine ⟨t, h1, ?_⟩
  by_cases hn : ∀ y, l.deleteRec k ≠ .ok (some y)
  · have e : l.deleteA k = l.delete k := by
      unfold deleteA delete
      rw [deleteRecA_none hc hn]
      cases hd : l.deleteRec k with
      | error => rfl
      | ok o =>
        cases o with
        | none => rfl
        | some o => exact absurd hd (hn o)
    rw [e, h2, deleteLong]
    cases hd : l.deleteRec k with
    | error x =>
      have : l.delete k = .error x := by unfold delete; rw [hd]; rfl
      rw [← h2, this]; rfl
    | ok o =>
      cases o with
      | none =>
        have : l.delete k = .ok (l, none) := by unfold delete; rw [hd]; rfl
        rw [← h2, this]; rfl
      | some o => exact absurd hd (hn o)
  · push Not at hn
    obtain ⟨⟨l', x⟩, hd⟩ := hn
    obtain ⟨_, -, -, g⟩ := deleteRec_exact l k hc
    obtain ⟨r, g1, -⟩ := tryCollapse_extOccupied (g _ hd l' x rfl).1
    have hr : l.delete k = .ok (r, some x) := by
      unfold delete; rw [hd]; simp only [R_bind_ok, g1]; rfl
    obtain ⟨a1, a2⟩ := deleteRecA_off hc hd g1
    rw [hr] at h2
    have h2 : deleteExact (absL l) t = .ok (absL r, some x) := h2.symm
    have key : r.Off k ↔ LongRun (absL r) t := by
      have hH : ¬ HashOn (absL l) t := fun h => by
        rw [deleteExact, if_pos h] at h2; cases h2
      by_cases hB : BranchAt (absL l) t
      · have he : absL r = (absL l).erase t := by
          rw [deleteExact, if_neg hH, if_pos hB] at h2
          exact (congrArg Prod.fst (Except.ok.inj h2)).symm
        obtain ⟨⟨d, z, hz⟩, -⟩ := hB
        have hm : absL r (t ++ d :: z) ≠ none := by
          rw [he, erase, if_neg (by simp)]; exact hz
        refine ⟨fun h => absurd ?_ (h.not_below hm), fun ⟨a, y, _, h4, h5, h6, _, h8⟩ => ?_⟩
        · exact (lands_prefix h1).trans (List.prefix_append _ _)
        · have := h8 _ hm (h4.trans (List.prefix_append _ _))
          rcases List.prefix_or_prefix_of_prefix this (List.prefix_append t (d :: z)) with h | h
          · exact absurd h h5
          · exact absurd h h6
      · have hk : t = k := by
          rcases h1 with ⟨_, h1⟩ | ⟨⟨hE, hb, hf, hl⟩, h3, h4, h5⟩
          · exact h1
          · refine absurd ?_ hB
            rcases h5 with h5 | h5
            · refine ⟨?_, .inl h5⟩
              by_contra hnb
              refine hl ?_
              obtain ⟨z, rfl⟩ := h3
              obtain ⟨v, hv⟩ := Option.ne_none_iff_exists'.1 h5
              cases v with
              | hash x => exact absurd ⟨_, x, hv, List.prefix_rfl⟩ hH
              | val x =>
                refine ⟨z, x, hv, fun w hw => ?_⟩
                obtain ⟨u, hu⟩ := h4 _ hw (List.prefix_append _ _)
                cases u with
                | nil =>
                  rw [List.append_nil] at hu
                  exact (List.append_cancel_left hu).symm
                | cons d u => exact absurd ⟨d, u, by rw [hu]; exact hw⟩ hnb
            · obtain ⟨d, e, a, b, hde, ha, hb⟩ := h5
              refine ⟨⟨d, a, ha⟩, .inr ?_⟩
              rintro ⟨z, x, hx, hz⟩
              have := (hz _ ha).trans (hz _ hb).symm
              simp at this
              exact hde this.1
        subst hk
        have hcr : r.Canon := (delete_clean hc h1 hr).2 fun _ hm hb => absurd ⟨hb, .inl hm⟩ hB
        exact ⟨off_longRun hcr, longRun_off hcr⟩
    rw [deleteLong, h2]
    by_cases ho : r.Off k
    · simp only [if_pos (key.1 ho)]
      rcases a1 ho with a | ⟨a, b⟩
      · unfold deleteA; rw [a]; rfl
      · unfold deleteA; rw [a]; simp only [R_bind_ok, b]; rfl
    · simp only [if_neg fun h => ho (key.2 h)]
      obtain ⟨a, b⟩ := a2 ho
      unfold deleteA; rw [a]; simp only [R_bind_ok, b]; rfl

end LNode
end EthTrie
