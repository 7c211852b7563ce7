import Verif.Subset.Mono
import Verif.Sys.Cells

/-!
# How the calls change the cache cells of roots
-/

namespace EthTrie

open Spec KMap LNode Nibbles

namespace PSys

variable {P : Profile} {kec : Bytes → H256}

/-- The hash that stands for a trie in its parent, if it is long enough. -/
def longHash (kec : Bytes → H256) (l : LNode) : Option H256 :=
  match l.enc kec with
  | .hashed h => some h
  | .raw _ => none

/-- Some list without keys is processed while the root is not marked. -/
def FillsL (P : Profile) (t : LTracked) : List (List Key) → Prop
  | [] => False
  | ks :: kss => (t.touched = false ∧ ks = []) ∨
      ∃ t', t.markAll P ks = .ok (.ok t') ∧ FillsL P t'.reset kss

theorem subsetX_cell {cell : Option H256} (t : LTracked) :
    (t.subsetX true kec cell).2 = if t.touched then cell else cell.or (longHash kec t.node) := by
  unfold LTracked.subsetX
  cases h : t.touched with
  | true => rfl
  | false =>
    cases cell with
    | some x => rfl
    | none =>
      simp only [LTracked.away, h, longHash, Bool.false_eq_true, if_false, if_true, Option.none_or]
      cases t.node.enc kec <;> rfl

theorem subsetsX_filled : ∀ (kss : List (List Key)) {t : LTracked} {cell : Option H256},
    cell.or (longHash kec t.node) = cell → ∀ r c,
    subsetsX P true kec t cell kss = .ok (r, c) → c = cell := by
  intro kss
  induction kss with
  | nil => intro t cell _ r c h; cases h; rfl
  | cons ks kss ih =>
    intro t cell hc r c h
    simp only [subsetsX, R_bind_eq_ok] at h
    obtain ⟨r1, hm, h⟩ := h
    cases r1 with
    | error e => cases h; rfl
    | ok t' =>
      have hn := LTracked.markAll_node P ks t t' hm
      have hcell : (t'.subsetX true kec cell).2 = cell := by
        rw [subsetX_cell, hn, hc]; simp
      simp only [R_bind_eq_ok, hcell] at h
      obtain ⟨⟨r2, c2⟩, h2, h⟩ := h
      have := ih (by rw [LTracked.reset_node, hn]; exact hc) _ _ h2
      subst this
      cases r2 <;> (cases h; rfl)

open Classical in
theorem subsetsX_cell : ∀ (kss : List (List Key)) {t : LTracked} {cell : Option H256} (r : Except Key (List LNode))
    (c : Option H256), subsetsX P true kec t cell kss = .ok (r, c) →
    c = if FillsL P t kss then cell.or (longHash kec t.node) else cell := by
  intro kss
  induction kss with
  | nil => intro t cell r c h; cases h; rw [if_neg (by simp [FillsL])]
  | cons ks kss ih =>
    intro t cell r c h
    simp only [subsetsX, R_bind_eq_ok] at h
    obtain ⟨r1, hm, h⟩ := h
    cases r1 with
    | error e =>
      cases h
      rw [if_neg]
      rintro (⟨_, rfl⟩ | ⟨t', h1, _⟩)
      · cases hm
      · rw [hm] at h1; cases h1
    | ok t' =>
      have hn := LTracked.markAll_node P ks t t' hm
      simp only [R_bind_eq_ok] at h
      obtain ⟨⟨r2, c2⟩, h2, h⟩ := h
      have hc2 : c = c2 := by cases r2 <;> (cases h; rfl)
      subst hc2
      rw [subsetX_cell, hn] at h2
      by_cases ht : t'.touched = true
      · rw [if_pos ht] at h2
        rw [ih _ _ h2, LTracked.reset_node, hn]
        congr 1
        have hiff : FillsL P t (ks :: kss) ↔ FillsL P t'.reset kss := by
          constructor
          · rintro (⟨h1, rfl⟩ | ⟨t'', h1, h2⟩)
            · cases hm; rw [h1] at ht; cases ht
            · rw [hm] at h1; cases h1; exact h2
          · exact fun h => .inr ⟨t', hm, h⟩
        rw [hiff]
      · rw [if_neg ht] at h2
        have hks : ks = [] := by
          by_contra e
          exact ht (LTracked.markAll_touched P ks t t' hm (.inl e))
        subst hks
        cases hm
        rw [if_pos (.inl ⟨by simpa using ht, rfl⟩)]
        refine subsetsX_filled kss ?_ _ _ h2
        rw [LTracked.reset_node]
        cases cell with
        | some x => rfl
        | none => simp

theorem markAll_ok_node {t : LTracked} {l : LNode} (h : t.node = l) (ks : List Key) :
    (∃ t', t.markAll P ks = .ok (.ok t')) ↔ ∃ t', (LTracked.new l).markAll P ks = .ok (.ok t') := by
  have := LTracked.markAll_outcome P ks (t := t) (u := LTracked.new l) (by rw [h, LTracked.node_new])
  revert this
  rcases t.markAll P ks with e | (e | x) <;>
    rcases (LTracked.new l).markAll P ks with e' | (e' | x') <;> simp [Except.map]

theorem fillsL_iff (l : LNode) : ∀ (kss : List (List Key)) (t : LTracked), t.node = l →
    (FillsL P t kss ↔ ∃ kss₁ kss₂, kss = kss₁ ++ [] :: kss₂ ∧
      (∀ ks ∈ kss₁, ∃ t', (LTracked.new l).markAll P ks = .ok (.ok t')) ∧
      (kss₁ = [] → t.touched = false) ∧
      (l.keepsMark = true → t.touched = false ∧ ∀ ks ∈ kss₁, ks = [])) := by
  intro kss
  induction kss with
  | nil => intro t _; simp [FillsL]
  | cons ks kss ih =>
    intro t ht
    constructor
    · rintro (⟨h1, rfl⟩ | ⟨t', h1, h2⟩)
      · exact ⟨[], kss, rfl, by simp, fun _ => h1, fun _ => ⟨h1, by simp⟩⟩
      · have hn : t'.reset.node = l := by
          rw [LTracked.reset_node, LTracked.markAll_node P ks t t' h1, ht]
        obtain ⟨kss₁, kss₂, rfl, g1, g2, g3⟩ := (ih t'.reset hn).1 h2
        refine ⟨ks :: kss₁, kss₂, rfl, ?_, by simp, ?_⟩
        · intro ks' hks'
          rcases List.mem_cons.1 hks' with rfl | hks'
          · exact (markAll_ok_node ht _).1 ⟨t', h1⟩
          · exact g1 ks' hks'
        · intro hk
          obtain ⟨g4, g5⟩ := g3 hk
          rw [LTracked.touched_reset, ← LTracked.reset_node, hn, hk, LTracked.touched_markAll h1] at g4
          simp only [Bool.true_and, Bool.or_eq_false_iff, Bool.not_eq_false', List.isEmpty_iff] at g4
          refine ⟨g4.1, ?_⟩
          intro ks' hks'
          rcases List.mem_cons.1 hks' with rfl | hks'
          · exact g4.2
          · exact g5 ks' hks'
    · rintro ⟨kss₁, kss₂, h1, g1, g2, g3⟩
      cases kss₁ with
      | nil =>
        simp only [List.nil_append, List.cons.injEq] at h1
        exact .inl ⟨g2 rfl, h1.1⟩
      | cons ks' kss₁ =>
        simp only [List.cons_append, List.cons.injEq] at h1
        obtain ⟨rfl, rfl⟩ := h1
        obtain ⟨t', ht'⟩ := (markAll_ok_node ht _).2 (g1 ks (by simp))
        have hn : t'.reset.node = l := by
          rw [LTracked.reset_node, LTracked.markAll_node P ks t t' ht', ht]
        refine .inr ⟨t', ht', (ih t'.reset hn).2 ⟨kss₁, kss₂, rfl, fun ks' h => g1 ks' (by simp [h]), ?_, ?_⟩⟩
        all_goals
          rw [LTracked.touched_reset, ← LTracked.reset_node, hn, LTracked.touched_markAll ht']
        · intro _
          cases hk : l.keepsMark with
          | false => rfl
          | true =>
            obtain ⟨g4, g5⟩ := g3 hk
            simp [g4, g5 ks (by simp)]
        · intro hk
          obtain ⟨g4, g5⟩ := g3 hk
          exact ⟨by simp [g4, g5 ks (by simp)], fun ks' h => g5 ks' (by simp [h])⟩

/-- The call makes a subset without keys from the trie `t` of handle `i`. -/
def FillsP (P : Profile) (l : LNode) (i : Nat) (c : Cmd) : Prop :=
  c = .subset i [] ∨ ∃ kss, c = .subsets i kss ∧ FillsL P (LTracked.new l) kss

/-- What a call does with handle `k` of family `f` and its cell. -/
def StepAt (P : Profile) (kec : Bytes → H256) (s s' : PSys) (c : Cmd) (k f : Nat) : Prop :=
  ∃ l', s'.hs[k]? = some (l', f) ∧
    (∀ i u, c.mutates = some i → s.hs[i]? = some (u, f) → s'.filled f = none) ∧
    (∀ i u, s.hs[i]? = some (u, f) → FillsP P u i c →
      s'.filled f = (s.filled f).or (longHash kec u)) ∧
    ((∀ i u, c.mutates = some i → s.hs[i]? ≠ some (u, f)) →
      (∀ i u, s.hs[i]? = some (u, f) → ¬ FillsP P u i c) → s'.filled f = s.filled f)

/-- What a call does with the handles that there are, and with their cells. -/
theorem exec_step {s s' : PSys} {c : Cmd} {o : Obs} (h : s.exec P true kec c = .ok (s', o))
    {k : Nat} {l : LNode} {f : Nat} (hk : s.hs[k]? = some (l, f)) :
    StepAt P kec s s' c k f := by
  classical
  -- calls that change nothing
  have hsame : s'.hs = s.hs → s'.filled = s.filled → (∀ i, c.mutates = some i → s.hs[i]? = none) →
      (∀ i u, s.hs[i]? = some u → ¬ FillsP P u.1 i c) → StepAt P kec s s' c k f := fun h1 h2 h3 h4 =>
    ⟨l, by rw [h1]; exact hk, (fun i u hi hu => by rw [h3 i hi] at hu; cases hu),
      (fun i u hu hf => absurd hf (h4 i _ hu)), fun _ _ => by rw [h2]⟩
  -- calls that append handles
  have happ : ∀ {g : Nat → Option H256} {n : Nat} {xs : List (LNode × Nat)}, s' = ⟨s.hs ++ xs, g, n⟩ →
      s'.hs[k]? = some (l, f) := by
    rintro g n xs rfl
    rw [List.getElem?_append_left (by rw [List.getElem?_eq_some_iff] at hk; exact hk.1)]
    exact hk
  have hpush : ∀ {g : Nat → Option H256} {n : Nat} {ls : List LNode}, s' = PSys.push ⟨s.hs, g, n⟩ ls →
      s'.hs[k]? = some (l, f) ∧ s'.filled = g := by
    rintro g n ls rfl
    obtain ⟨fs, h1, _⟩ := push_hs ⟨s.hs, g, n⟩ ls
    rw [h1, push_filled]
    exact ⟨by
      rw [List.getElem?_append_left (by rw [List.getElem?_eq_some_iff] at hk; exact hk.1)]
      exact hk, rfl⟩
  -- calls that change a trie
  have hset : ∀ {i : Nat} {t : LNode × Nat} {l' : LNode}, s.hs[i]? = some t → c.mutates = some i →
      s' = ⟨s.hs.set i (l', t.2), upd s.filled t.2 none, s.next⟩ → StepAt P kec s s' c k f :=
    fun {i t l'} ht hm hs' => by
      subst hs'
      have hn : ∀ u j, ¬ FillsP P u j c := by
        rintro u j (rfl | ⟨_, rfl, _⟩) <;> cases hm
      refine ⟨if i = k then l' else l, ?_, ?_, (fun j u hu hf => absurd hf (hn u j)), ?_⟩
      · show (s.hs.set i (l', t.2))[k]? = _
        by_cases e : i = k
        · subst e
          rw [hk] at ht
          cases ht
          rw [if_pos rfl, List.getElem?_set_self (by rw [List.getElem?_eq_some_iff] at hk; exact hk.1)]
        · rw [if_neg e, List.getElem?_set_ne e]
          exact hk
      · intro j u hj hu
        rw [hm] at hj
        cases hj
        rw [hu] at ht
        cases ht
        simp
      · intro h1 _
        refine upd_other _ _ fun e => h1 i t.1 hm ?_
        rw [ht, e]
  -- calls that make subsets
  have hsub : ∀ {i : Nat} {t : LNode × Nat} {cell : Option H256}, s.hs[i]? = some t →
      c.mutates = none → s'.hs[k]? = some (l, f) → s'.filled = upd s.filled t.2 cell →
      (∀ j u, FillsP P u j c → j = i) →
      (cell = if FillsP P t.1 i c then (s.filled t.2).or (longHash kec t.1) else s.filled t.2) →
      StepAt P kec s s' c k f := fun {i t cell} ht hm h1 h2 h3 h4 => by
      refine ⟨l, h1, (fun j u hj => by rw [hm] at hj; cases hj), ?_, ?_⟩
      · intro j u hu hf
        obtain rfl := h3 j u hf
        rw [hu] at ht
        cases ht
        rw [if_pos hf] at h4
        rw [h2, upd_same, h4]
      · intro _ hn
        rw [h2]
        by_cases e : f = t.2
        · subst e
          rw [if_neg (hn i t.1 ht)] at h4
          rw [upd_same, h4]
        · rw [upd_other _ _ e]
  have hfalse : ∀ {c' : Cmd}, c = c' → (∀ i, c' ≠ .subset i []) → (∀ i kss, c' ≠ .subsets i kss) →
      ∀ i u, ¬ FillsP P u i c := by
    rintro c' rfl h1 h2 i u (h | ⟨kss, h, _⟩)
    · exact h1 i h
    · exact h2 i kss h
  have hnew : ∀ {xs}, s' = s.push xs → c.mutates = none → (∀ i u, ¬ FillsP P u i c) →
      StepAt P kec s s' c k f := fun {xs} hs' hm hn => by
      obtain ⟨h1, h2⟩ := hpush hs'
      refine ⟨l, h1, (fun i u hi => by rw [hm] at hi; cases hi), (fun i u _ hf => absurd hf (hn i u)),
        fun _ _ => by rw [h2]⟩
  cases c with
  | new =>
    cases h
    exact hnew rfl rfl (hfalse rfl (by simp) (by simp))
  | fromIter xs =>
    simp only [exec, R_bind_eq_ok] at h
    obtain ⟨x, _, h⟩ := h
    cases h
    exact hnew rfl rfl (hfalse rfl (by simp) (by simp))
  | clone i =>
    rcases on_ok h with ⟨_, rfl, _⟩ | ⟨u, hu, h⟩
    · exact hsame rfl rfl (fun i hi => by cases hi) fun i u _ => hfalse rfl (by simp) (by simp) i _
    · cases h
      exact ⟨l, happ rfl, (fun i u hi => by cases hi), (fun i u _ hf =>
        absurd hf (hfalse rfl (by simp) (by simp) i u)), fun _ _ => rfl⟩
  | insert i x v =>
    rcases on_ok h with ⟨hn, rfl, _⟩ | ⟨u, hu, h⟩
    · exact hsame rfl rfl (fun j hj => by cases hj; exact hn) fun i u _ => hfalse rfl (by simp) (by simp) i _
    · simp only [R_bind_eq_ok] at h
      obtain ⟨x, _, h⟩ := h
      cases h
      exact hset hu rfl rfl
  | extend i x =>
    rcases on_ok h with ⟨hn, rfl, _⟩ | ⟨u, hu, h⟩
    · exact hsame rfl rfl (fun j hj => by cases hj; exact hn) fun i u _ => hfalse rfl (by simp) (by simp) i _
    · simp only [R_bind_eq_ok] at h
      obtain ⟨x, _, h⟩ := h
      cases h
      exact hset hu rfl rfl
  | delete i x =>
    rcases on_ok h with ⟨hn, rfl, _⟩ | ⟨u, hu, h⟩
    · exact hsame rfl rfl (fun j hj => by cases hj; exact hn) fun i u _ => hfalse rfl (by simp) (by simp) i _
    · simp only [R_bind_eq_ok] at h
      obtain ⟨x, _, h⟩ := h
      cases h
      exact hset hu rfl rfl
  | get i x =>
    rcases on_ok h with ⟨_, rfl, _⟩ | ⟨u, hu, h⟩
    · exact hsame rfl rfl (fun i hi => by cases hi) fun i u _ => hfalse rfl (by simp) (by simp) i _
    · simp only [R_bind_eq_ok] at h
      obtain ⟨x, _, h⟩ := h
      cases h
      exact hsame rfl rfl (fun i hi => by cases hi) fun i u _ => hfalse rfl (by simp) (by simp) i _
  | hash i =>
    rcases on_ok h with ⟨_, rfl, _⟩ | ⟨u, hu, h⟩
    · exact hsame rfl rfl (fun i hi => by cases hi) fun i u _ => hfalse rfl (by simp) (by simp) i _
    · cases h
      exact hsame rfl rfl (fun i hi => by cases hi) fun i u _ => hfalse rfl (by simp) (by simp) i _
  | items i =>
    rcases on_ok h with ⟨_, rfl, _⟩ | ⟨u, hu, h⟩
    · exact hsame rfl rfl (fun i hi => by cases hi) fun i u _ => hfalse rfl (by simp) (by simp) i _
    · simp only [R_bind_eq_ok] at h
      obtain ⟨x, _, h⟩ := h
      cases h
      exact hsame rfl rfl (fun i hi => by cases hi) fun i u _ => hfalse rfl (by simp) (by simp) i _
  | eq i j =>
    rcases on_ok h with ⟨_, rfl, _⟩ | ⟨u, hu, h⟩
    · exact hsame rfl rfl (fun i hi => by cases hi) fun i u _ => hfalse rfl (by simp) (by simp) i _
    · rcases on_ok h with ⟨_, rfl, _⟩ | ⟨u, hu, h⟩
      · exact hsame rfl rfl (fun i hi => by cases hi) fun i u _ => hfalse rfl (by simp) (by simp) i _
      · cases h
        exact hsame rfl rfl (fun i hi => by cases hi) fun i u _ => hfalse rfl (by simp) (by simp) i _
  | subset i ks =>
    have h3 : ∀ j u, FillsP P u j (.subset i ks) → j = i ∧ ks = [] := by
      rintro j u (h | ⟨_, h, _⟩)
      · cases h; exact ⟨rfl, rfl⟩
      · cases h
    rcases on_ok h with ⟨hn, rfl, _⟩ | ⟨u, hu, h⟩
    · refine hsame rfl rfl (fun i hi => by cases hi) fun j u hj hf => ?_
      obtain ⟨rfl, _⟩ := h3 j _ hf
      rw [hn] at hj; cases hj
    · simp only [R_bind_eq_ok] at h
      obtain ⟨r, hr, h⟩ := h
      cases r with
      | error e =>
        cases h
        refine hsame rfl rfl (fun i hi => by cases hi) fun j u hj hf => ?_
        obtain ⟨rfl, rfl⟩ := h3 j _ hf
        cases hr
      | ok tr =>
        cases h
        obtain ⟨h1, h2⟩ := hpush rfl
        refine hsub hu rfl h1 h2 (fun j u hf => (h3 j u hf).1) ?_
        rw [subsetX_cell, LTracked.touched_markAll hr, LTracked.touched_new,
          LTracked.markAll_node P ks _ _ hr, LTracked.node_new]
        by_cases e : ks = []
        · subst e
          rw [if_pos (show FillsP P u.1 i (.subset i []) from .inl rfl)]
          rfl
        · rw [if_neg fun hf => e (h3 i u.1 hf).2, if_pos]
          cases ks with
          | nil => exact absurd rfl e
          | cons => rfl
  | subsets i kss =>
    have h3 : ∀ j u, FillsP P u j (.subsets i kss) ↔ j = i ∧ FillsL P (LTracked.new u) kss := by
      intro j u
      constructor
      · rintro (h | ⟨_, h, h'⟩)
        · cases h
        · cases h; exact ⟨rfl, h'⟩
      · rintro ⟨rfl, h'⟩
        exact .inr ⟨kss, rfl, h'⟩
    rcases on_ok h with ⟨hn, rfl, _⟩ | ⟨u, hu, h⟩
    · refine hsame rfl rfl (fun i hi => by cases hi) fun j u hj hf => ?_
      obtain ⟨rfl, _⟩ := (h3 j _).1 hf
      rw [hn] at hj; cases hj
    · simp only [R_bind_eq_ok] at h
      obtain ⟨⟨r, cell⟩, hr, h⟩ := h
      have hcell := subsetsX_cell kss r cell hr
      rw [LTracked.node_new] at hcell
      have hcell' : cell = if FillsP P u.1 i (.subsets i kss) then
          (s.filled u.2).or (longHash kec u.1) else s.filled u.2 := by
        rw [hcell]
        by_cases e : FillsL P (LTracked.new u.1) kss
        · rw [if_pos e, if_pos ((h3 i u.1).2 ⟨rfl, e⟩)]
        · rw [if_neg e, if_neg fun hf => e ((h3 i u.1).1 hf).2]
      cases r with
      | error e =>
        cases h
        exact hsub hu rfl hk rfl (fun j u hf => ((h3 j u).1 hf).1) hcell'
      | ok ls =>
        cases h
        obtain ⟨h1, h2⟩ := hpush rfl
        exact hsub hu rfl h1 h2 (fun j u hf => ((h3 j u).1 hf).1) hcell'

end PSys


/-- Two handles share the cache cell of the root. -/
def Sys.Shares {α S : Type} (s : Sys α S) (i j : Nat) : Prop :=
  ∃ t u, s.hs[i]? = some t ∧ s.hs[j]? = some u ∧ t.ann = u.ann

/-- The call makes a subset without keys of handle `i` and the root of the trie is not marked at that
time: `create_trie_subset` for no keys, or `create_trie_subsets` with a list without keys such that
all lists before it are processed without an error; if the root is a branch or an extension, these
must be without keys, too. -/
def Sys.Fills {α S : Type} [TrieKind α S] (P : Profile) (kec : Bytes → H256) (s : Sys α S) (i : Nat)
    (c : Cmd) : Prop :=
  c = .subset i [] ∨
  ∃ t kss₁ kss₂, s.hs[i]? = some t ∧ c = .subsets i (kss₁ ++ [] :: kss₂) ∧
    (∀ ks ∈ kss₁, ∃ r st, createTrieSubset P kec t (ks.map ofList) s.state = .ok (.ok r, st)) ∧
    (t.plain.keepsMark = true → ∀ ks ∈ kss₁, ks = [])

variable {M : Mode} {P : Profile} {kec : Bytes → H256} {K : Kind} {s : Sys K.Ann K.State}

theorem Live.fills (h : Live K M P kec s) {i : Nat} {t : Trie K.Ann} (hi : s.hs[i]? = some t) {c : Cmd}
    (hc : c.Short) : s.Fills P kec i c ↔ PSys.FillsP P t.plain i c := by
  unfold Sys.Fills PSys.FillsP
  refine or_congr_right ?_
  have key : ∀ ks : List Key, (∀ k ∈ ks, k.length ≤ 127) →
      ((∃ r st, createTrieSubset P kec t (ks.map ofList) s.state = .ok (.ok r, st)) ↔
      ∃ t', (LTracked.new t.plain).markAll P ks = .ok (.ok t')) := by
    intro ks hks
    have := h.subset_exact hi hks
    revert this
    rcases createTrieSubset P kec t (ks.map ofList) s.state with e | ⟨e | r, st⟩ <;>
      rcases (LTracked.new t.plain).markAll P ks with e' | (e' | r') <;> simp [Except.map]
  constructor
  · rintro ⟨t', kss₁, kss₂, ht', rfl, h1, h2⟩
    rw [hi] at ht'
    cases ht'
    refine ⟨_, rfl, (PSys.fillsL_iff t.plain _ _ (LTracked.node_new _)).2 ⟨kss₁, kss₂, rfl, ?_, ?_, ?_⟩⟩
    · exact fun ks hks => (key ks (hc ks (by simp [hks]))).1 (h1 ks hks)
    · exact fun _ => LTracked.touched_new _
    · exact fun hk => ⟨LTracked.touched_new _, h2 hk⟩
  · rintro ⟨kss, rfl, hf⟩
    obtain ⟨kss₁, kss₂, rfl, h1, _, h2⟩ := (PSys.fillsL_iff t.plain _ _ (LTracked.node_new _)).1 hf
    exact ⟨t, kss₁, kss₂, hi, rfl, fun ks hks => (key ks (hc ks (by simp [hks]))).2 (h1 ks hks),
      fun hk => (h2 hk).2⟩

theorem Inv.shares {kec : Bytes → H256} {α S : Type} [K : TrieKind α S] [L : KindLaws kec α S]
    (hr : L.real) {w : L.W} {s : Sys α S} {p : PSys} {Z : List (Trie α × LNode × Nat)}
    (h : Inv kec w s p Z) {i j : Nat} : s.Shares i j ↔
      ∃ t u : LNode × Nat, p.hs[i]? = some t ∧ p.hs[j]? = some u ∧ t.2 = u.2 := by
  unfold Sys.Shares
  rw [h.hs, h.phs]
  simp only [List.getElem?_map, Option.map_eq_some_iff]
  constructor
  · rintro ⟨_, _, ⟨a, ha, rfl⟩, ⟨b, hb, rfl⟩, e⟩
    exact ⟨_, _, ⟨a, ha, rfl⟩, ⟨b, hb, rfl⟩,
      h.sep hr a (List.mem_of_getElem? ha) b (List.mem_of_getElem? hb) e⟩
  · rintro ⟨_, _, ⟨a, ha, rfl⟩, ⟨b, hb, rfl⟩, e⟩
    exact ⟨_, _, ⟨a, ha, rfl⟩, ⟨b, hb, rfl⟩,
      h.share a (List.mem_of_getElem? ha) b (List.mem_of_getElem? hb) e⟩

end EthTrie
