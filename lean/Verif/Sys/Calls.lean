import Verif.Sys.Main
import Verif.Trie.Unique

/-!
# Direct calls on reached handles
-/

namespace EthTrie

open Spec KMap LNode Nibbles

variable {K : Kind} {M : Mode} {P : Profile} {kec : Bytes → H256} {s : Sys K.Ann K.State}
  {i : Nat} {t : Trie K.Ann}

theorem Live.wfKeys (h : Live K M P kec s) (ht : t ∈ s.hs) : t.WFKeys := by
  obtain ⟨w, p, Z, h1, _⟩ := h.inv.ex
  rw [h1.hs, List.mem_map] at ht
  obtain ⟨a, ha, rfl⟩ := ht
  exact (h1.ok a ha).rep.wfKeys

theorem Sys.contents_get (hi : s.hs[i]? = some t) : s.contents[i]? = some t.contents := by
  simp [Sys.contents, hi]

theorem Sys.set_get (hi : s.hs[i]? = some t) (t' : Trie K.Ann) :
    (s.hs.set i t')[i]? = some t' := by
  have hlt : i < s.hs.length := (List.getElem?_eq_some_iff.1 hi).1
  simp [hlt]

/-- A supported insertion. -/
theorem Reached.insert (h : Reached K M P kec s) (hi : s.hs[i]? = some t) {k : Key}
    (hk : k.length ≤ 127) {v : ValOrHash} (hok : t.contents.InsertOK k v) :
    ∃ t' st, t.insert P (ofList k) v s.state = .ok (t', st) ∧
      Reached K M P kec ⟨st, s.hs.set i t'⟩ ∧ t'.contents = t.contents.put k v := by
  have hp : permitted K M (.insert i k v) := by cases K <;> cases M <;> trivial
  have hsup : Supported P s.contents (.insert i k v) :=
    ⟨hk, fun m hm => by rw [Sys.contents_get hi] at hm; cases hm; exact hok⟩
  obtain ⟨s', o, h1, h2, h3⟩ := h.exec_fresh hsup hp trivial
  simp only [Sys.exec, exec_on hi] at h1
  cases hr : t.insert P (ofList k) v s.state with
  | error e => rw [hr] at h1; cases h1
  | ok r =>
    obtain ⟨t', st⟩ := r
    rw [hr] at h1
    simp only [R_bind_ok, R_pure, Except.ok.injEq, Prod.mk.injEq] at h1
    obtain ⟨rfl, rfl⟩ := h1
    refine ⟨t', st, rfl, h3, ?_⟩
    simp only [Step, onMap, Sys.contents_get hi, true_and] at h2
    have h4 := Sys.contents_get (s := ⟨st, s.hs.set i t'⟩) (Sys.set_get hi t')
    rw [h2] at h4
    have hlt : i < s.hs.length := (List.getElem?_eq_some_iff.1 hi).1
    simpa [Sys.contents, hlt] using h4.symm

/-- A supported extension. -/
theorem Reached.extend (h : Reached K M P kec s) (hi : s.hs[i]? = some t)
    {xs : List (Key × ValOrHash)} (hk : ∀ x ∈ xs, x.1.length ≤ 127) (hok : t.contents.PutsOK xs) :
    ∃ t' st, t.extend P (packEntries xs) s.state = .ok (t', st) ∧
      Reached K M P kec ⟨st, s.hs.set i t'⟩ ∧ t'.contents = t.contents.putAll xs := by
  have hp : permitted K M (.extend i xs) := by cases K <;> cases M <;> trivial
  have hsup : Supported P s.contents (.extend i xs) :=
    ⟨hk, fun m hm => by rw [Sys.contents_get hi] at hm; cases hm; exact hok⟩
  obtain ⟨s', o, h1, h2, h3⟩ := h.exec_fresh hsup hp trivial
  simp only [Sys.exec, exec_on hi] at h1
  cases hr : t.extend P (packEntries xs) s.state with
  | error e => rw [hr] at h1; cases h1
  | ok r =>
    obtain ⟨t', st⟩ := r
    rw [hr] at h1
    simp only [R_bind_ok, R_pure, Except.ok.injEq, Prod.mk.injEq] at h1
    obtain ⟨rfl, rfl⟩ := h1
    refine ⟨t', st, rfl, h3, ?_⟩
    simp only [Step, onMap, Sys.contents_get hi, true_and] at h2
    have h4 := Sys.contents_get (s := ⟨st, s.hs.set i t'⟩) (Sys.set_get hi t')
    rw [h2] at h4
    have hlt : i < s.hs.length := (List.getElem?_eq_some_iff.1 hi).1
    simpa [Sys.contents, hlt] using h4.symm

/-- A supported deletion. -/
theorem Reached.delete (h : Reached K M P kec s) (hi : s.hs[i]? = some t) {k : Key}
    (hk : k.length ≤ 127) (hok : t.contents.DeleteOK k) (hsh : t.contents.Short) :
    ∃ t' st, t.delete P (ofList k) s.state = .ok ((t', t.contents.find k), st) ∧
      Reached K M P kec ⟨st, s.hs.set i t'⟩ ∧ t'.contents = t.contents.erase k := by
  have hp : permitted K M (.delete i k) := by cases K <;> cases M <;> trivial
  have hsup : Supported P s.contents (.delete i k) :=
    ⟨hk, fun m hm => by rw [Sys.contents_get hi] at hm; cases hm; exact ⟨hok, hsh⟩⟩
  obtain ⟨s', o, h1, h2, h3⟩ := h.exec_fresh hsup hp trivial
  simp only [Sys.exec, exec_on hi] at h1
  cases hr : t.delete P (ofList k) s.state with
  | error e => rw [hr] at h1; cases h1
  | ok r =>
    obtain ⟨⟨t', r⟩, st⟩ := r
    rw [hr] at h1
    simp only [R_bind_ok, R_pure, Except.ok.injEq, Prod.mk.injEq] at h1
    obtain ⟨rfl, rfl⟩ := h1
    simp only [Step, onMap, Sys.contents_get hi, Obs.val.injEq] at h2
    obtain ⟨rfl, h2⟩ := h2
    refine ⟨t', st, rfl, h3, ?_⟩
    have h4 := Sys.contents_get (s := ⟨st, s.hs.set i t'⟩) (Sys.set_get hi t')
    rw [h2] at h4
    have hlt : i < s.hs.length := (List.getElem?_eq_some_iff.1 hi).1
    simpa [Sys.contents, hlt] using h4.symm

/-- A supported lookup. -/
theorem Reached.get (h : Reached K M P kec s) (hi : s.hs[i]? = some t) {k : Key}
    (hk : k.length ≤ 127) (hok : t.contents.GetOK P k) :
    t.get P (ofList k) = .ok (t.contents.find k) := by
  rw [h.live.get hi hk]
  exact get_abs P t.plain k (h.canon (List.mem_of_getElem? hi)).1 hok

/-- Reached tries with equal contents are equal up to caches. -/
theorem plain_eq_of_contents {K₁ K₂ : Kind} {M₁ M₂ : Mode} {P₁ P₂ : Profile} {kec₁ kec₂ : Bytes → H256}
    {s₁ : Sys K₁.Ann K₁.State} {s₂ : Sys K₂.Ann K₂.State} (h₁ : Reached K₁ M₁ P₁ kec₁ s₁)
    (h₂ : Reached K₂ M₂ P₂ kec₂ s₂) {t₁ : Trie K₁.Ann} {t₂ : Trie K₂.Ann} (m₁ : t₁ ∈ s₁.hs)
    (m₂ : t₂ ∈ s₂.hs) : t₁.plain = t₂.plain ↔ t₁.contents = t₂.contents :=
  ⟨fun h => by rw [Trie.contents, h]; rfl,
    canon_unique _ _ (h₁.canon m₁).1 (h₂.canon m₂).1⟩

theorem beq_iff_contents {K₁ K₂ : Kind} {M₁ M₂ : Mode} {P₁ P₂ : Profile} {kec₁ kec₂ : Bytes → H256}
    {s₁ : Sys K₁.Ann K₁.State} {s₂ : Sys K₂.Ann K₂.State} (h₁ : Reached K₁ M₁ P₁ kec₁ s₁)
    (h₂ : Reached K₂ M₂ P₂ kec₂ s₂) {t₁ : Trie K₁.Ann} {t₂ : Trie K₂.Ann} (m₁ : t₁ ∈ s₁.hs)
    (m₂ : t₂ ∈ s₂.hs) : t₁.beq t₂ = true ↔ t₁.contents = t₂.contents := by
  rw [Trie.beq_iff_plain (h₁.live.wfKeys m₁) (h₂.live.wfKeys m₂), plain_eq_of_contents h₁ h₂ m₁ m₂]

end EthTrie
