import Verif.Debug.TrieTextLemmas
import Verif.Props.Serde
import Verif.Props.Contents

/-!
# Property C70: the `Debug` text of tries
-/

namespace EthTrie

open Spec KMap LNode Nibbles

variable {K : Kind} {M M₁ M₂ : Mode} {P P₁ P₂ : Profile} {kec kec₁ kec₂ : Bytes → H256}
  {s s₁ s₂ : Sys K.Ann K.State} {t t₁ t₂ : Trie K.Ann}

theorem Trie.Formed.keysFit {α : Type} {t : Trie α} {b : Nat} (hb : b ≤ 128) (h : t.Formed b) : t.KeysFit := by
  induction t generalizing b with
  | empty a => trivial
  | hash a x => trivial
  | branch a cs v ih => exact fun i => ih i (by omega) (h.2 i)
  | ext a n c ih => exact ⟨⟨h.1, by have := h.2.2.1; omega⟩, ih (by omega) h.2.2.2.2⟩
  | leaf a n v => exact ⟨h.1, by have := h.2; omega⟩

theorem Live.keysFit (h : Live K M P kec s) (ht : t ∈ s.hs) : t.KeysFit :=
  (h.inv.sound (P := P) ht).formed.keysFit (by decide)

/-- C70: a trie can always be printed, and printing it changes nothing. -/
theorem C70_total (h : Live K M P₁ kec s) (ht : t ∈ s.hs) :
    ∃ x, (t.debug K.cells P).run s.state = .ok (x, s.state) := ⟨_, debug_run t (h.keysFit ht) _⟩

/-- C70: two tries, perhaps of different programs, have the same text exactly if they are equal and the
same hashes are cached in them. -/
theorem C70_injective (h₁ : Live K M₁ P₁ kec₁ s₁) (ht₁ : t₁ ∈ s₁.hs) (h₂ : Live K M₂ P₂ kec₂ s₂)
    (ht₂ : t₂ ∈ s₂.hs) :
    ((t₁.debug K.cells P₁).run s₁.state).map (·.1) = ((t₂.debug K.cells P₂).run s₂.state).map (·.1) ↔
      t₁.caches (K.get s₁.state) = t₂.caches (K.get s₂.state) := by
  rw [debug_run t₁ (h₁.keysFit ht₁), debug_run t₂ (h₂.keysFit ht₂)]
  constructor
  · intro h
    refine (text_inj (fun hc a => Kind.get_none hc _ a) (fun hc a => Kind.get_none hc _ a) t₁ t₂ [] []
      (h₁.keysFit ht₁) (h₂.keysFit ht₂) ?_).1
    rw [List.append_nil, List.append_nil]
    exact Except.ok.inj h
  · intro h
    show Except.ok _ = Except.ok _
    exact congrArg (fun t => Except.ok (Trie.text K.cells t)) h

/-- The text of a trie and of its changed clone are different. -/
example (K : Kind) (P : Profile) : (((caseT K P 0).debug K.cells P).run (caseS K P).state).map (·.1) ≠
    (((caseT K P 1).debug K.cells P).run (caseS K P).state).map (·.1) := by
  intro h
  have h := (C70_injective (caseLive K P) (caseMem K P (by decide)) (caseLive K P) (caseMem K P (by decide))).1 h
  have h' : ((caseT K P 0).caches (K.get (caseS K P).state)).beq
      ((caseT K P 1).caches (K.get (caseS K P).state)) = false := by
    obtain ⟨P⟩ := P; cases K <;> cases P <;> decide +kernel
  have h'' : ((caseT K P 1).caches (K.get (caseS K P).state)).beq
      ((caseT K P 1).caches (K.get (caseS K P).state)) = true := by
    obtain ⟨P⟩ := P; cases K <;> cases P <;> decide +kernel
  rw [h, h''] at h'
  cases h'

/-- C70: two tries whose keys are well-formed, whatever else they look like, have the same text exactly if
they are equal and the same hashes are cached in them. -/
theorem C70_any (h₁ : t₁.KeysFit) (h₂ : t₂.KeysFit) (σ₁ σ₂ : K.State) :
    ((t₁.debug K.cells P₁).run σ₁).map (·.1) = ((t₂.debug K.cells P₂).run σ₂).map (·.1) ↔
      t₁.caches (K.get σ₁) = t₂.caches (K.get σ₂) := by
  rw [debug_run t₁ h₁, debug_run t₂ h₂]
  constructor
  · intro h
    refine (text_inj (fun hc a => Kind.get_none hc _ a) (fun hc a => Kind.get_none hc _ a) t₁ t₂ [] []
      h₁ h₂ ?_).1
    rw [List.append_nil, List.append_nil]
    exact Except.ok.inj h
  · intro h
    show Except.ok _ = Except.ok _
    exact congrArg (fun t => Except.ok (Trie.text K.cells t)) h

theorem caches_standard (t u : Trie Unit) {f g : Unit → Option H256} (h : t.caches f = u.caches g) : t = u := by
  induction t generalizing u with
  | empty a => cases u <;> simp [Trie.caches] at h ⊢
  | hash a x => cases u <;> simp [Trie.caches] at h ⊢ <;> exact h.2
  | leaf a n v => cases u <;> simp [Trie.caches] at h ⊢ <;> exact h.2
  | ext a n c ih =>
    cases u <;> simp [Trie.caches] at h ⊢
    exact ⟨h.2.1, ih _ h.2.2⟩
  | branch a cs v ih =>
    cases u <;> simp [Trie.caches] at h ⊢
    exact ⟨funext fun i => ih i _ (congrFun h.2.1 i), h.2.2⟩

/-- C70: `StandardTrie`s have the same text exactly if they are equal. -/
theorem C70_standard {s₁ s₂ : Sys Kind.standard.Ann Kind.standard.State} {t₁ t₂ : Trie Kind.standard.Ann}
    (h₁ : Live .standard M₁ P₁ kec₁ s₁) (ht₁ : t₁ ∈ s₁.hs) (h₂ : Live .standard M₂ P₂ kec₂ s₂)
    (ht₂ : t₂ ∈ s₂.hs) :
    ((t₁.debug false P₁).run s₁.state).map (·.1) = ((t₂.debug false P₂).run s₂.state).map (·.1) ↔
      t₁ = t₂ := by
  have := C70_injective h₁ ht₁ h₂ ht₂
  refine this.trans ⟨fun h => caches_standard _ _ h, fun h => by rw [h]⟩

theorem beq_caches {α : Type} (f : α → Option H256) (t : Trie α) : t.beq (t.caches f) = true := by
  induction t with
  | empty a => rfl
  | hash a x => simp [Trie.beq, Trie.caches]
  | leaf a n v => simp [Trie.beq, Trie.caches]
  | ext a n c ih => simp [Trie.beq, Trie.caches, ih]
  | branch a cs v ih => simp [Trie.beq, Trie.caches, ih]

/-- C70: for both types the same texts mean equal tries. Missing: the converse for `HashedPartialTrie`s
(`C70_false`). -/
theorem C70_partial (h₁ : Live K M₁ P₁ kec₁ s₁) (ht₁ : t₁ ∈ s₁.hs) (h₂ : Live K M₂ P₂ kec₂ s₂)
    (ht₂ : t₂ ∈ s₂.hs)
    (h : ((t₁.debug K.cells P₁).run s₁.state).map (·.1) = ((t₂.debug K.cells P₂).run s₂.state).map (·.1)) :
    t₁.beq t₂ = true ∧ t₁.contents = t₂.contents := by
  have e := (C70_injective h₁ ht₁ h₂ ht₂).1 h
  have e1 : t₁.beq (t₂.caches (K.get s₂.state)) = true := e ▸ beq_caches _ t₁
  have e2 := C36_trans _ _ _ e1 (by rw [C36_symm]; exact beq_caches _ t₂)
  exact ⟨e2, congrArg absL (beq_plain e2)⟩

/-- The texts of two tries after some calls. -/
def Kind.texts (K : Kind) (P : Profile) (kec : Bytes → H256) (cs : List Cmd) (i j : Nat) :
    Option (Text × Text) := do
  let (s, _) ← (K.run P kec cs).toOption
  let t ← s.hs[i]?
  let u ← s.hs[j]?
  let x ← ((t.debug K.cells P).run s.state).toOption
  let y ← ((u.debug K.cells P).run s.state).toOption
  return (x.1, y.1)

/-- A trie with two leaves. -/
def exTwo (i : Nat) : List Cmd :=
  [.new, .insert i [1, 2] (.val (List.replicate 32 7)), .insert i [2, 3] (.val (List.replicate 32 8))]

/-- C70 is false for `HashedPartialTrie`s: two equal tries have different texts after one of them was
hashed. -/
theorem C70_false : ∀ (P : Profile) (kec : Bytes → H256),
    (Kind.hashed.obs P kec (exTwo 0 ++ exTwo 1 ++ [.hash 0, .eq 0 1])).map (·.getLast?) =
      .ok (some (.bool true)) ∧
    (Kind.hashed.texts P kec (exTwo 0 ++ exTwo 1 ++ [.hash 0]) 0 1).map (fun x => x.1 == x.2) =
      some false := by
  intro ⟨P⟩ kec
  constructor <;> cases P <;> kernel_rfl

/-- C70: the texts of the two types differ. -/
theorem C70_kinds {s₁ : Sys Kind.standard.Ann Kind.standard.State} {t₁ : Trie Kind.standard.Ann}
    {s₂ : Sys Kind.hashed.Ann Kind.hashed.State} {t₂ : Trie Kind.hashed.Ann}
    (h₁ : Live .standard M₁ P₁ kec₁ s₁) (ht₁ : t₁ ∈ s₁.hs) (h₂ : Live .hashed M₂ P₂ kec₂ s₂)
    (ht₂ : t₂ ∈ s₂.hs) :
    ((t₁.debug false P₁).run s₁.state).map (·.1) ≠ ((t₂.debug true P₂).run s₂.state).map (·.1) := by
  rw [debug_run t₁ (h₁.keysFit ht₁), debug_run t₂ (h₂.keysFit ht₂)]
  intro h
  have h := Except.ok.inj h
  have e1 : ∀ t : Trie (Option H256), ∃ x, t.text false = 'S' :: x := by
    intro t; cases t <;> exact ⟨_, rfl⟩
  have e2 : ∀ t : Trie (Option H256), ∃ x, t.text true = 'H' :: x := by
    intro t; cases t <;> exact ⟨_, rfl⟩
  obtain ⟨x, hx⟩ := e1 (t₁.caches (Kind.standard.get s₁.state))
  obtain ⟨y, hy⟩ := e2 (t₂.caches (Kind.hashed.get s₂.state))
  have : 'S' :: x = 'H' :: y := hx.symm.trans (h.trans hy)
  exact absurd (List.cons.inj this).1 (by decide)

/-! ## Examples -/

example : ∀ (P : Profile) (kec : Bytes → H256),
    Kind.standard.texts P kec [.new, .insert 0 [1, 15] (.val [7, 200]), .new] 0 1 =
      some ("StandardTrie(Leaf { nibbles: Nibbles { count: 2, packed: \"0x1f\" }, value: [7, 200] })".toList,
        "StandardTrie(Empty)".toList) := by
  intro ⟨P⟩ kec; cases P <;> kernel_rfl

example : ∀ (P : Profile) (kec : Bytes → H256),
    Kind.hashed.texts P kec [.new, .insert 0 [1, 15] (.val [7, 200]), .new] 0 1 =
      some (("HashedPartialTrie { node: Leaf { nibbles: Nibbles { count: 2, packed: \"0x1f\" }, " ++
          "value: [7, 200] }, hash: RwLock { data: None } }").toList,
        "HashedPartialTrie { node: Empty, hash: RwLock { data: None } }".toList) := by
  intro ⟨P⟩ kec; cases P <;> kernel_rfl

/-- Without the hash, the tries of `C70_false` have the same texts. -/
example : ∀ (P : Profile) (kec : Bytes → H256),
    (Kind.hashed.texts P kec (exTwo 0 ++ exTwo 1) 0 1).map (fun x => x.1 == x.2) = some true := by
  intro ⟨P⟩ kec; cases P <;> kernel_rfl

end EthTrie
