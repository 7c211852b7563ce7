import Verif.Serde.Lemmas
import Verif.Spec.Loaded

/-!
# Reading arbitrary data
-/

namespace EthTrie

open Nibbles Spec
open SData (fields2 ofBytes ofHash ofNibbles)

variable {K : Kind}

/-- The cells that exist. -/
def Kind.used : (K : Kind) → K.State → K.Ann → Prop
  | .standard, _, _ => True
  | .hashed, s, a => a.id < s.next

/-- Existing cells keep their contents. -/
def KeepS (K : Kind) (s s' : K.State) : Prop :=
  ∀ a, K.used s a → K.used s' a ∧ K.trieKind.cacheGet a s' = K.trieKind.cacheGet a s

theorem KeepS.refl (s : K.State) : KeepS K s s := fun _ h => ⟨h, rfl⟩

theorem KeepS.trans {s s' s'' : K.State} (h : KeepS K s s') (h' : KeepS K s' s'') : KeepS K s s'' :=
  fun a ha => ⟨(h' a (h a ha).1).1, (h' a (h a ha).1).2.trans (h a ha).2⟩

theorem keepS_alloc (s : K.State) : KeepS K s (K.trieKind.alloc s).2 := by
  intro a ha
  cases K with
  | standard => exact ⟨trivial, rfl⟩
  | hashed =>
    have h1 : a.id < s.next := ha
    exact ⟨Nat.lt_succ_of_lt h1, upd_other _ _ (Nat.ne_of_lt h1)⟩

theorem keepS_set (s : K.State) (v : Option H256) :
    KeepS K s (K.trieKind.cacheSet (K.trieKind.alloc s).1 v (K.trieKind.alloc s).2) := by
  intro a ha
  cases K with
  | standard => exact ⟨trivial, rfl⟩
  | hashed =>
    have h1 : a.id < s.next := ha
    refine ⟨Nat.lt_succ_of_lt h1, ?_⟩
    exact (upd_other _ _ (Nat.ne_of_lt h1)).trans (upd_other _ _ (Nat.ne_of_lt h1))

/-- The program does not panic and keeps existing cells. -/
def Prog.Harmless {β : Type} (p : Prog K.Ann β) : Prop :=
  ∀ s : K.State, ∃ r s', p.run s = .ok (r, s') ∧ KeepS K s s'

theorem Prog.Harmless.ret {β : Type} (b : β) : (Prog.ret b : Prog K.Ann β).Harmless :=
  fun s => ⟨b, s, rfl, .refl _⟩

theorem Prog.Harmless.andThen {β γ : Type} {p : Prog K.Ann (Except DeError β)}
    {f : β → Prog K.Ann (Except DeError γ)} (hp : p.Harmless) (hf : ∀ b, (f b).Harmless) :
    (p.andThen f).Harmless := by
  intro s
  obtain ⟨r, s', h1, h2⟩ := hp s
  show ∃ r s', ((p >>= _) : Prog K.Ann _).run s = .ok (r, s') ∧ _
  rw [Prog.bind_run, h1]
  cases r with
  | error e => exact ⟨.error e, s', rfl, h2⟩
  | ok b =>
    obtain ⟨r, s'', h3, h4⟩ := hf b s'
    exact ⟨r, s'', h3, h2.trans h4⟩

theorem Prog.Harmless.collectE {β : Type} : ∀ {n : Nat} {p : Fin n → Prog K.Ann (Except DeError β)},
    (∀ i, (p i).Harmless) → (Prog.collectE n p).Harmless := by
  intro n
  induction n with
  | zero => intro p _; exact .ret _
  | succ n ih => intro p h; exact (h 0).andThen fun _ => (ih fun i => h i.succ).andThen fun _ => .ret _

theorem harmless_visit2 {β γ : Type} {n : Nat} {a b : String}
    {pa : Fin n → Prog K.Ann (Except DeError β)} {pb : Fin n → Prog K.Ann (Except DeError γ)}
    {name : Fin n → String} (ha : ∀ i, (pa i).Harmless) (hb : ∀ i, (pb i).Harmless) :
    ∀ is x y, (visit2 a pa b pb name is x y).Harmless := by
  intro is
  induction is with
  | nil => intro x y; exact .ret _
  | cons i is ih =>
    intro x y
    unfold visit2
    split
    · cases x with
      | some x => exact .ret _
      | none => exact (ha i).andThen fun _ => ih _ _
    · split
      · cases y with
        | some y => exact .ret _
        | none => exact (hb i).andThen fun _ => ih _ _
      · exact ih _ _

theorem harmless_nibbles (d : SData) : (deNibbles d : Prog K.Ann _).Harmless := by
  cases d with
  | struct n name val =>
    rw [deNibbles]
    exact (harmless_visit2 (fun _ => .ret _) (fun _ => .ret _) _ _ _).andThen fun _ => .ret _
  | _ => exact .ret _

theorem harmless_finish (r : Pending K.Ann) : r.finish.Harmless := by
  intro s
  obtain ⟨node, o⟩ := r
  cases o with
  | none => exact ⟨_, _, rfl, keepS_alloc s⟩
  | some h => exact ⟨_, _, rfl, keepS_set s _⟩

theorem harmless_all (cached : Bool) (d : SData) :
    (deWrap cached d : Prog K.Ann _).Harmless ∧ (deNode cached d : Prog K.Ann _).Harmless ∧
      (∀ name, (deVariant cached name d : Prog K.Ann _).Harmless) ∧
      (deChildren cached d : Prog K.Ann _).Harmless := by
  induction d with
  | seq n elem ih =>
    refine ⟨.ret _, .ret _, fun name => ?_, ?_⟩
    · rw [deVariant]; split <;> exact .ret _
      all_goals simp
    · rw [deChildren]
      split
      · exact .collectE fun i => (ih _).1.andThen harmless_finish
      · exact .ret _
  | struct n name val ih =>
    refine ⟨?_, .ret _, fun v => ?_, .ret _⟩
    · rw [deWrap]
      split
      · refine (harmless_visit2 (fun i => (ih i).2.1) (fun _ => .ret _) _ _ _).andThen ?_
        rintro ⟨_ | _, _⟩ <;> exact .ret _
      · exact .ret _
    · rw [deVariant]
      split
      · exact (harmless_visit2 (fun i => (ih i).2.2.2) (fun _ => .ret _) _ _ _).andThen fun _ => .ret _
      split
      · exact (harmless_visit2 (fun i => harmless_nibbles _)
          (fun i => (ih i).1.andThen harmless_finish) _ _ _).andThen fun _ => .ret _
      split
      · exact (harmless_visit2 (fun i => harmless_nibbles _) (fun i => .ret _) _ _ _).andThen
          fun _ => .ret _
      split <;> exact .ret _
  | variant name d ih =>
    refine ⟨?_, ?_, fun v => ?_, .ret _⟩
    · rw [deWrap]
      split
      · exact .ret _
      · exact (ih.2.2.1 _).andThen fun _ => .ret _
    · rw [deNode]; exact ih.2.2.1 _
    · rw [deVariant]; split <;> exact .ret _
      all_goals simp
  | unit =>
    refine ⟨.ret _, .ret _, fun v => ?_, .ret _⟩
    rw [deVariant]
    split
    · exact .ret _
    split <;> exact .ret _
  | digest h =>
    refine ⟨.ret _, .ret _, fun v => ?_, .ret _⟩
    rw [deVariant]
    split
    · exact .ret _
    split <;> exact .ret _
  | _ =>
    refine ⟨.ret _, .ret _, fun v => ?_, .ret _⟩
    rw [deVariant]; split <;> exact .ret _
    all_goals simp

theorem harmless_de (cached : Bool) (d : SData) : (Trie.de cached d : Prog K.Ann _).Harmless :=
  (harmless_all cached d).1.andThen harmless_finish

/-! ### What was read is what would be written -/

theorem andThen_inv {α S β γ : Type} [TrieKind α S] {p : Prog α (Except DeError β)}
    {f : β → Prog α (Except DeError γ)} {s s' : S} {x : γ} (h : (p.andThen f).run s = .ok (.ok x, s')) :
    ∃ y s1, p.run s = .ok (.ok y, s1) ∧ (f y).run s1 = .ok (.ok x, s') := by
  have h : (p >>= _).run s = _ := h
  rw [Prog.bind_run] at h
  cases hp : p.run s with
  | error e => rw [hp] at h; cases h
  | ok r =>
    obtain ⟨r, s1⟩ := r
    rw [hp] at h
    cases r with
    | error e => cases h
    | ok y => exact ⟨y, s1, rfl, h⟩

theorem ret_inv {α S β : Type} [TrieKind α S] {r : Except DeError β} {s s' : S} {x : β}
    (h : (Prog.ret r : Prog α _).run s = .ok (.ok x, s')) : r = .ok x ∧ s' = s := by
  cases h; exact ⟨rfl, rfl⟩

section
variable {α S β γ : Type} [TrieKind α S] {n : Nat} {a b : String}
  {pa : Fin n → Prog α (Except DeError β)} {pb : Fin n → Prog α (Except DeError γ)} {name : Fin n → String}

/-- The state is changed by the first field only. -/
theorem visit2_first (hb : ∀ i s s' y, (pb i).run s = .ok (.ok y, s') → s' = s) :
    ∀ is x0 y0 (s : S) s' x y, (visit2 a pa b pb name is x0 y0).run s = .ok (.ok (some x, y), s') →
      (x0 = some x ∧ s' = s) ∨ (x0 = none ∧ ∃ i, (pa i).run s = .ok (.ok x, s')) := by
  intro is
  induction is with
  | nil => intro x0 y0 s s' x y h; cases h; exact .inl ⟨rfl, rfl⟩
  | cons i is ih =>
    intro x0 y0 s s' x y h
    unfold visit2 at h
    split at h
    · cases x0 with
      | some x0 => cases h
      | none =>
        obtain ⟨x', s1, h1, h2⟩ := andThen_inv h
        rcases ih _ _ _ _ _ _ h2 with ⟨e, rfl⟩ | ⟨e, _⟩
        · cases e; exact .inr ⟨rfl, i, h1⟩
        · cases e
    · split at h
      · cases y0 with
        | some y0 => cases h
        | none =>
          obtain ⟨y', s1, h1, h2⟩ := andThen_inv h
          cases hb _ _ _ _ h1
          exact ih _ _ _ _ _ _ h2
      · exact ih _ _ _ _ _ _ h

/-- The state is changed by the second field only. -/
theorem visit2_second (ha : ∀ i s s' x, (pa i).run s = .ok (.ok x, s') → s' = s) :
    ∀ is x0 y0 (s : S) s' x y, (visit2 a pa b pb name is x0 y0).run s = .ok (.ok (x, some y), s') →
      (y0 = some y ∧ s' = s) ∨ (y0 = none ∧ ∃ i, (pb i).run s = .ok (.ok y, s')) := by
  intro is
  induction is with
  | nil => intro x0 y0 s s' x y h; cases h; exact .inl ⟨rfl, rfl⟩
  | cons i is ih =>
    intro x0 y0 s s' x y h
    unfold visit2 at h
    split at h
    · cases x0 with
      | some x0 => cases h
      | none =>
        obtain ⟨x', s1, h1, h2⟩ := andThen_inv h
        cases ha _ _ _ _ h1
        exact ih _ _ _ _ _ _ h2
    · split at h
      · cases y0 with
        | some y0 => cases h
        | none =>
          obtain ⟨y', s1, h1, h2⟩ := andThen_inv h
          rcases ih _ _ _ _ _ _ h2 with ⟨e, rfl⟩ | ⟨e, _⟩
          · cases e; exact .inr ⟨rfl, i, h1⟩
          · cases e
      · exact ih _ _ _ _ _ _ h

/-- Where a value comes from. -/
theorem visit2_from : ∀ is x0 y0 (s : S) s' x y,
    (visit2 a pa b pb name is x0 y0).run s = .ok (.ok (some x, y), s') →
      x0 = some x ∨ ∃ i s1 s2, (pa i).run s1 = .ok (.ok x, s2) := by
  intro is
  induction is with
  | nil => intro x0 y0 s s' x y h; cases h; exact .inl rfl
  | cons i is ih =>
    intro x0 y0 s s' x y h
    unfold visit2 at h
    split at h
    · cases x0 with
      | some x0 => cases h
      | none =>
        obtain ⟨x', s1, h1, h2⟩ := andThen_inv h
        rcases ih _ _ _ _ _ _ h2 with e | e
        · cases e; exact .inr ⟨i, _, _, h1⟩
        · exact .inr e
    · split at h
      · cases y0 with
        | some y0 => cases h
        | none =>
          obtain ⟨y', s1, h1, h2⟩ := andThen_inv h
          exact ih _ _ _ _ _ _ h2
      · exact ih _ _ _ _ _ _ h

theorem visit2_still (ha : ∀ i s s' x, (pa i).run s = .ok (.ok x, s') → s' = s)
    (hb : ∀ i s s' y, (pb i).run s = .ok (.ok y, s') → s' = s) :
    ∀ is x0 y0 (s : S) s' r, (visit2 a pa b pb name is x0 y0).run s = .ok (.ok r, s') → s' = s := by
  intro is
  induction is with
  | nil => intro x0 y0 s s' r h; cases h; rfl
  | cons i is ih =>
    intro x0 y0 s s' r h
    unfold visit2 at h
    split at h
    · cases x0 with
      | some x0 => cases h
      | none =>
        obtain ⟨x', s1, h1, h2⟩ := andThen_inv h
        cases ha _ _ _ _ h1
        exact ih _ _ _ _ _ h2
    · split at h
      · cases y0 with
        | some y0 => cases h
        | none =>
          obtain ⟨y', s1, h1, h2⟩ := andThen_inv h
          cases hb _ _ _ _ h1
          exact ih _ _ _ _ _ h2
      · exact ih _ _ _ _ _ h

end

theorem both_inv {β γ δ : Type} {r : Option β × Option γ} {f : β × γ → δ} {z : δ}
    (h : (both r).map f = .ok z) : ∃ x y, r = (some x, some y) ∧ f (x, y) = z := by
  obtain ⟨_ | x, _ | y⟩ := r
  · cases h
  · cases h
  · cases h
  · cases h; exact ⟨x, y, rfl, rfl⟩

theorem nibbles_inv {α S : Type} [TrieKind α S] {d : SData} {s s' : S} {k : Nibbles}
    (h : (deNibbles d : Prog α _).run s = .ok (.ok k, s')) : s' = s ∧ k.count < 2 ^ 64 := by
  cases d with
  | struct n name val =>
    rw [deNibbles] at h
    obtain ⟨r, s1, h1, h2⟩ := andThen_inv h
    obtain ⟨h3, rfl⟩ := ret_inv h2
    obtain ⟨c, p, rfl, rfl⟩ := both_inv h3
    refine ⟨visit2_still (fun i s s' x h => (ret_inv h).2) (fun i s s' x h => (ret_inv h).2)
      _ _ _ _ _ _ h1, ?_⟩
    rcases visit2_from _ _ _ _ _ _ _ h1 with e | ⟨i, _, _, e⟩
    · cases e
    · have e := (ret_inv e).1
      revert e
      cases val i with
      | num m =>
        intro e
        simp only [deUsize] at e
        split at e
        · cases e; assumption
        · cases e
      | _ => intro e; cases e
  | _ => cases h

/-- A property of the cells of all proper sub-tries. -/
def Trie.InnerAnn {α : Type} (p : α → Prop) : Trie α → Prop
  | .branch _ cs _ => ∀ i, p (cs i).ann ∧ (cs i).InnerAnn p
  | .ext _ _ c => p c.ann ∧ c.InnerAnn p
  | _ => True

theorem Trie.InnerAnn.mono {α : Type} {p q : α → Prop} (hpq : ∀ a, p a → q a) {t : Trie α}
    (h : t.InnerAnn p) : t.InnerAnn q := by
  induction t with
  | branch a cs v ih => exact fun i => ⟨hpq _ (h i).1, ih i (h i).2⟩
  | ext a n c ih => exact ⟨hpq _ h.1, ih h.2⟩
  | _ => trivial


theorem nodeData_keepS {cached : Bool} {s s' : K.State} (hk : KeepS K s s') {t : Trie K.Ann}
    (h : t.InnerAnn (K.used s)) : t.nodeData cached (K.get s') = t.nodeData cached (K.get s) := by
  induction t with
  | branch a cs v ih =>
    simp only [Trie.nodeData]
    congr 3
    funext i
    rw [ih i (h i).2, Kind.get, (hk _ (h i).1).2]
  | ext a n c ih => simp only [Trie.nodeData, ih h.2, Kind.get, (hk _ h.1).2]
  | _ => rfl

/-- A node that was read. -/
structure NodeRead (s s' : K.State) (node : K.Ann → Trie K.Ann) : Prop where
  ann : ∀ a, (node a).ann = a
  inner : ∀ a, (node a).InnerAnn (K.used s')
  again : ∀ a, (deNode K.cells ((node a).nodeData K.cells (K.get s'))).run s = .ok (.ok node, s')

/-- A trie that was read. -/
structure TrieRead (s s' : K.State) (t : Trie K.Ann) : Prop where
  used : K.used s' t.ann
  inner : t.InnerAnn (K.used s')
  again : ((deWrap K.cells (t.data K.cells (K.get s'))).andThen fun r => r.finish).run s = .ok (.ok t, s')

theorem NodeRead.finish {s s1 s' : K.State} {r : Pending K.Ann} {t : Trie K.Ann} (h : NodeRead s s1 r.1)
    (hc : K.cells = false → r.2 = none) (hf : r.finish.run s1 = .ok (.ok t, s')) :
    TrieRead s s' t ∧ KeepS K s1 s' := by
  obtain ⟨node, o⟩ := r
  have hk : KeepS K s1 s' := by
    obtain ⟨r, s2, e1, e2⟩ := harmless_finish (node, o) s1
    rw [hf] at e1; cases e1; exact e2
  have key : t = node (K.trieKind.alloc s1).1 ∧ K.used s' (K.trieKind.alloc s1).1 ∧
      (K.cells = true → K.get s' (K.trieKind.alloc s1).1 = o) := by
    cases o with
    | none =>
      cases hf
      refine ⟨rfl, ?_, fun _ => ?_⟩ <;> cases K
      · trivial
      · exact Nat.lt_succ_self _
      · rfl
      · exact upd_same _ _ _
    | some x =>
      cases hf
      refine ⟨rfl, ?_, fun hc => ?_⟩ <;> cases K
      · trivial
      · exact Nat.lt_succ_self _
      · cases hc
      · exact upd_same _ _ _
  obtain ⟨rfl, h1, h2⟩ := key
  have ha := h.ann (K.trieKind.alloc s1).1
  have hi := h.inner (K.trieKind.alloc s1).1
  refine ⟨⟨by rw [ha]; exact h1, hi.mono fun a ha => (hk a ha).1, ?_⟩, hk⟩
  unfold Trie.data
  rw [nodeData_keepS hk hi, ha]
  have hg := h.again (K.trieKind.alloc s1).1
  obtain ⟨name, d, e⟩ := nodeData_variant (cached := K.cells) (K.get s1) (node (K.trieKind.alloc s1).1)
  rw [e] at hg ⊢
  rw [andThen_run _ _ (deWrap_run hg), ← hf]
  have : (if K.cells then K.get s' (K.trieKind.alloc s1).1 else none) = o := by
    cases hK : K.cells with
    | true => exact h2 hK
    | false => exact (hc hK).symm
  rw [this]

theorem collectE_read : ∀ {n : Nat} {p : Fin n → Prog K.Ann (Except DeError (Trie K.Ann))} {s s' : K.State}
    {f : Fin n → Trie K.Ann}, (∀ i s s' t, (p i).run s = .ok (.ok t, s') → TrieRead s s' t ∧ KeepS K s s') →
    (Prog.collectE n p).run s = .ok (.ok f, s') →
    KeepS K s s' ∧ (∀ i, K.used s' (f i).ann ∧ (f i).InnerAnn (K.used s')) ∧
      (Prog.collectE n fun i => (deWrap K.cells ((f i).data K.cells (K.get s'))).andThen
        fun r => r.finish).run s = .ok (.ok f, s') := by
  intro n
  induction n with
  | zero => intro p s s' f _ h; cases h; exact ⟨.refl _, fun i => i.elim0, rfl⟩
  | succ n ih =>
    intro p s s' f hp h
    rw [Prog.collectE] at h
    obtain ⟨t, s1, h1, h⟩ := andThen_inv h
    obtain ⟨f', s2, h2, h⟩ := andThen_inv h
    cases h
    obtain ⟨g1, g2⟩ := hp 0 _ _ _ h1
    obtain ⟨j1, j2, j3⟩ := ih (fun i => hp i.succ) h2
    refine ⟨g2.trans j1, ?_, ?_⟩
    · intro i
      refine Fin.cases ?_ (fun i => j2 i) i
      exact ⟨(j1 _ g1.used).1, g1.inner.mono fun a ha => (j1 a ha).1⟩
    · have e : t.data K.cells (K.get s') = t.data K.cells (K.get s1) := by
        unfold Trie.data
        rw [nodeData_keepS j1 g1.inner, Kind.get, (j1 _ g1.used).2]
      rw [Prog.collectE]
      have := g1.again
      rw [← e] at this
      refine (andThen_run _ _ this).trans ?_
      refine (andThen_run _ _ j3).trans rfl

theorem read_all (d : SData) :
    (∀ s s' r, (deWrap K.cells d : Prog K.Ann _).run s = .ok (.ok r, s') →
      NodeRead s s' r.1 ∧ (K.cells = false → r.2 = none)) ∧
    (∀ s s' node, (deNode K.cells d : Prog K.Ann _).run s = .ok (.ok node, s') → NodeRead s s' node) ∧
    (∀ name s s' node, (deVariant K.cells name d : Prog K.Ann _).run s = .ok (.ok node, s') →
      NodeRead s s' node) ∧
    (∀ s s' f, (deChildren K.cells d : Prog K.Ann _).run s = .ok (.ok f, s') →
      (∀ i, K.used s' (f i).ann ∧ (f i).InnerAnn (K.used s')) ∧
        (deChildren K.cells (.seq 16 fun i => (f i).data K.cells (K.get s'))).run s =
          .ok (.ok f, s')) := by
  have other : ∀ {c : Prop} [Decidable c] {e e' : DeError} {s s' : K.State} {node : K.Ann → Trie K.Ann},
      (if c then .ret (.error e) else .ret (.error e') : Prog K.Ann (Except DeError (K.Ann → Trie K.Ann))).run s = .ok (.ok node, s') → False := by
    intro c _ e e' s s' node h
    split at h <;> cases h
  have child : ∀ {d : SData}, (∀ s s' r, (deWrap K.cells d : Prog K.Ann _).run s = .ok (.ok r, s') →
      NodeRead s s' r.1 ∧ (K.cells = false → r.2 = none)) → ∀ s s' t,
      ((deWrap K.cells d).andThen fun r => r.finish).run s = .ok (.ok t, s') →
        TrieRead s s' t ∧ KeepS K s s' := by
    intro d hw s s' t h
    obtain ⟨r, s1, h1, h2⟩ := andThen_inv h
    obtain ⟨g1, g2⟩ := hw _ _ _ h1
    obtain ⟨j1, j2⟩ := g1.finish g2 h2
    refine ⟨j1, KeepS.trans ?_ j2⟩
    obtain ⟨r, s2, e1, e2⟩ := (harmless_all (K := K) K.cells d).1 s
    rw [h1] at e1; cases e1; exact e2
  induction d with
  | seq n elem ih =>
    refine ⟨(fun _ _ _ h => by cases h), (fun _ _ _ h => by cases h), fun name s s' node h => ?_,
      fun s s' f h => ?_⟩
    · rw [deVariant] at h
      · exact (other h).elim
      all_goals simp
    · rw [deChildren] at h
      split at h
      · rename_i hn
        obtain ⟨_, g2, g3⟩ := collectE_read (fun i => child (ih _).1) h
        refine ⟨g2, ?_⟩
        rw [deChildren, dif_pos rfl]
        exact g3
      · cases h
  | struct n name val ih =>
    refine ⟨fun s s' r h => ?_, (fun _ _ _ h => by cases h), fun v s s' node h => ?_,
      (fun _ _ _ h => by cases h)⟩
    · rw [deWrap] at h
      split at h
      · rename_i hc
        obtain ⟨⟨x, y⟩, s1, h1, h2⟩ := andThen_inv h
        cases x with
        | none => cases h2
        | some node =>
          cases h2
          rcases visit2_first (fun i s s' y h => (ret_inv h).2) _ _ _ _ _ _ _ h1 with ⟨e, _⟩ | ⟨_, i, e⟩
          · cases e
          · exact ⟨(ih i).2.1 _ _ _ e, fun h => by rw [hc] at h; cases h⟩
      · cases h
    · rw [deVariant] at h
      split at h
      · obtain ⟨r, s1, h1, h2⟩ := andThen_inv h
        obtain ⟨h3, rfl⟩ := ret_inv h2
        obtain ⟨cs, bs, rfl, rfl⟩ := both_inv h3
        rcases visit2_first (fun i s s' y h => (ret_inv h).2) _ _ _ _ _ _ _ h1 with ⟨e, _⟩ | ⟨_, i, e⟩
        · cases e
        obtain ⟨g1, g2⟩ := (ih i).2.2.2 _ _ _ e
        refine ⟨fun a => rfl, fun a => g1, fun a => ?_⟩
        have := visit2_run (s := s) (a := "children") (b := "value") (by decide)
          (.seq 16 fun i => (cs i).data K.cells (K.get s')) (ofBytes bs)
          (fun d => deChildren K.cells d) (fun d => .ret (deBytes d)) g2
          (by rw [deBytes_ofBytes]; rfl) rfl
        show (deNode K.cells (.variant _ (.struct _ _ _))).run _ = _
        rw [deNode, deVariant, if_pos rfl]
        refine (andThen_run _ _ this).trans rfl
      split at h
      · obtain ⟨r, s1, h1, h2⟩ := andThen_inv h
        obtain ⟨h3, rfl⟩ := ret_inv h2
        obtain ⟨k, c, rfl, rfl⟩ := both_inv h3
        have hk : k.count < 2 ^ 64 := by
          rcases visit2_from _ _ _ _ _ _ _ h1 with e | ⟨i, _, _, e⟩
          · cases e
          · exact (nibbles_inv e).2
        rcases visit2_second (fun i s s' y h => (nibbles_inv h).1) _ _ _ _ _ _ _ h1 with ⟨e, _⟩ | ⟨_, i, e⟩
        · cases e
        obtain ⟨g1, _⟩ := child (ih i).1 _ _ _ e
        refine ⟨fun a => rfl, fun a => ⟨g1.used, g1.inner⟩, fun a => ?_⟩
        have := visit2_run (s := s) (a := "nibbles") (b := "child") (by decide) (ofNibbles k)
          (c.data K.cells (K.get s'))
          (fun d => deNibbles d) (fun d => (deWrap K.cells d).andThen fun r => r.finish)
          (by rw [deNibbles_ofNibbles hk]; rfl) g1.again rfl
        show (deNode K.cells (.variant _ (.struct _ _ _))).run _ = _
        rw [deNode, deVariant, if_neg (by decide), if_pos rfl]
        refine (andThen_run _ _ this).trans rfl
      split at h
      · obtain ⟨r, s1, h1, h2⟩ := andThen_inv h
        obtain ⟨h3, rfl⟩ := ret_inv h2
        obtain ⟨k, bs, rfl, rfl⟩ := both_inv h3
        have hk : k.count < 2 ^ 64 := by
          rcases visit2_from _ _ _ _ _ _ _ h1 with e | ⟨i, _, _, e⟩
          · cases e
          · exact (nibbles_inv e).2
        have hs := visit2_still (fun i s s' y h => (nibbles_inv h).1) (fun i s s' y h => (ret_inv h).2)
          _ _ _ _ _ _ h1
        subst hs
        refine ⟨fun a => rfl, fun a => trivial, fun a => ?_⟩
        have := visit2_run (α := K.Ann) (s := s') (a := "nibbles") (b := "value") (by decide) (ofNibbles k)
          (ofBytes bs) (fun d => deNibbles d) (fun d => .ret (deBytes d))
          (by rw [deNibbles_ofNibbles hk]; rfl) (by rw [deBytes_ofBytes]; rfl) rfl
        show (deNode K.cells (.variant _ (.struct _ _ _))).run _ = _
        rw [deNode, deVariant, if_neg (by decide), if_neg (by decide), if_pos rfl]
        refine (andThen_run _ _ this).trans rfl
      exact (other h).elim
  | variant nm d ih =>
    refine ⟨fun s s' r h => ?_, fun s s' node h => ?_, fun name s s' node h => ?_, (fun _ _ _ h => by cases h)⟩
    · rw [deWrap] at h
      split at h
      · cases h
      · obtain ⟨node, s1, h1, h2⟩ := andThen_inv h
        cases h2
        exact ⟨ih.2.2.1 _ _ _ _ h1, fun _ => rfl⟩
    · rw [deNode] at h
      exact ih.2.2.1 _ _ _ _ h
    · rw [deVariant] at h
      · exact (other h).elim
      all_goals simp
  | unit =>
    refine ⟨(fun _ _ _ h => by cases h), (fun _ _ _ h => by cases h), fun name s s' node h => ?_,
      (fun _ _ _ h => by cases h)⟩
    rw [deVariant] at h
    split at h
    · cases h
      exact ⟨fun a => rfl, fun a => trivial, fun a => by
        simp [Trie.nodeData, deNode, deVariant, Prog.run]⟩
    · exact (other h).elim
  | digest x =>
    refine ⟨(fun _ _ _ h => by cases h), (fun _ _ _ h => by cases h), fun name s s' node h => ?_,
      (fun _ _ _ h => by cases h)⟩
    rw [deVariant] at h
    split at h
    · cases h
      exact ⟨fun a => rfl, fun a => trivial, fun a => by
        simp [Trie.nodeData, deNode, deVariant, Prog.run]⟩
    · exact (other h).elim
  | _ =>
    refine ⟨(fun _ _ _ h => by cases h), (fun _ _ _ h => by cases h), fun name s s' node h => ?_,
      (fun _ _ _ h => by cases h)⟩
    rw [deVariant] at h
    · exact (other h).elim
    all_goals simp

/-- Whatever data a trie was read from, reading the data of the trie gives the same. -/
theorem read_again {d : SData} {s s' : K.State} {t : Trie K.Ann}
    (h : (Trie.de K.cells d).run s = .ok (.ok t, s')) :
    (Trie.de K.cells (t.data K.cells (K.get s'))).run s = .ok (.ok t, s') := by
  obtain ⟨r, s1, h1, h2⟩ := andThen_inv h
  obtain ⟨g1, g2⟩ := (read_all d).1 _ _ _ h1
  exact (g1.finish g2 h2).1.again

end EthTrie
