import Verif.Serde.Untrusted
import Verif.Spec.ReadFrom

/-!
# Exactly what is accepted when data are read
-/

namespace EthTrie

open SData (fields2 ofBytes ofHash ofNibbles)

variable {K : Kind}

/-! ### The data determine the trie -/

theorem Field.unique {n : Nat} {name : Fin n → String} {val : Fin n → SData} {a : String} {x y : SData}
    (h : Field name val a x) (h' : Field name val a y) : x = y := by
  obtain ⟨i, rfl, h1⟩ := h
  obtain ⟨j, rfl, h2⟩ := h'
  rw [(h2 i).1 ((h1 i).2 rfl)]

theorem ofBytes_inj {a b : Bytes} (h : ofBytes a = ofBytes b) : a = b := by
  have := congrArg deBytes h
  rw [deBytes_ofBytes, deBytes_ofBytes] at this
  exact Except.ok.inj this

theorem ofHash_inj {a b : Option H256} (h : ofHash a = ofHash b) : a = b := by
  cases a <;> cases b <;> cases h <;> rfl

theorem NibblesFrom.unique {d : SData} {k k' : Nibbles} (h : NibblesFrom d k) (h' : NibblesFrom d k') :
    k = k' := by
  obtain ⟨n, name, val, rfl, h1, _, h2⟩ := h
  obtain ⟨_, _, _, e, h3, _, h4⟩ := h'
  cases e
  obtain ⟨c, p⟩ := k
  obtain ⟨c', p'⟩ := k'
  cases h1.unique h3
  cases h2.unique h4
  rfl

theorem WrapFrom.unique {cached : Bool} {d x x' : SData} {o o' : Option H256} (h : WrapFrom cached d o x)
    (h' : WrapFrom cached d o' x') : o = o' ∧ x = x' := by
  unfold WrapFrom at h h'
  split at h
  · rename_i hc
    rw [if_pos hc] at h'
    obtain ⟨n, name, val, rfl, h1, h2⟩ := h
    obtain ⟨_, _, _, e, h3, h4⟩ := h'
    cases e
    refine ⟨?_, h1.unique h3⟩
    rcases h2 with h2 | ⟨h2, rfl⟩ <;> rcases h4 with h4 | ⟨h4, rfl⟩
    · exact ofHash_inj (h2.unique h4)
    · obtain ⟨i, _, hi⟩ := h2
      exact (h4 i ((hi i).2 rfl)).elim
    · obtain ⟨i, _, hi⟩ := h4
      exact (h2 i ((hi i).2 rfl)).elim
    · rfl
  · rename_i hc
    rw [if_neg hc] at h'
    obtain ⟨rfl, rfl⟩ := h
    obtain ⟨rfl, rfl⟩ := h'
    exact ⟨rfl, rfl⟩

theorem setAnn_ann {α : Type} (t : Trie α) : t.setAnn t.ann = t := by cases t <;> rfl

theorem setAnn_setAnn {α : Type} (t : Trie α) (a b : α) : (t.setAnn a).setAnn b = t.setAnn b := by
  cases t <;> rfl

theorem NodeFrom.setAnn {cached : Bool} {t : Trie (Option H256)} {d : SData} (h : t.NodeFrom cached d)
    (o : Option H256) : (t.setAnn o).NodeFrom cached d := by
  cases t <;> exact h

theorem NodeFrom.unique {cached : Bool} {t u : Trie (Option H256)} {d : SData} (h : t.NodeFrom cached d)
    (h' : u.NodeFrom cached d) : t.setAnn u.ann = u := by
  induction t generalizing u d with
  | empty a =>
    cases h
    cases u with
    | empty b => rfl
    | hash b x => simp [Trie.NodeFrom] at h'
    | leaf b k v => obtain ⟨_, _, _, e, _⟩ := h'; simp at e
    | ext b k c => obtain ⟨_, _, _, e, _⟩ := h'; simp at e
    | branch b cs v => obtain ⟨_, _, _, e, _⟩ := h'; simp at e
  | hash a x =>
    cases h
    cases u with
    | empty b => simp [Trie.NodeFrom] at h'
    | hash b x => cases h'; rfl
    | leaf b k v => obtain ⟨_, _, _, e, _⟩ := h'; simp at e
    | ext b k c => obtain ⟨_, _, _, e, _⟩ := h'; simp at e
    | branch b cs v => obtain ⟨_, _, _, e, _⟩ := h'; simp at e
  | leaf a k v =>
    obtain ⟨n, name, val, rfl, ⟨x, h1, h2⟩, h3⟩ := h
    cases u with
    | empty b => simp [Trie.NodeFrom] at h'
    | hash b x => simp [Trie.NodeFrom] at h'
    | leaf b k' v' =>
      obtain ⟨_, _, _, e, ⟨x', h1', h2'⟩, h3'⟩ := h'
      cases e
      cases h1.unique h1'
      cases h2.unique h2'
      cases ofBytes_inj (h3.unique h3')
      rfl
    | ext b k c => obtain ⟨_, _, _, e, _⟩ := h'; simp at e
    | branch b cs v => obtain ⟨_, _, _, e, _⟩ := h'; simp at e
  | ext a k c ih =>
    obtain ⟨n, name, val, rfl, ⟨x, h1, h2⟩, y, z, h3, h4, h5⟩ := h
    cases u with
    | empty b => simp [Trie.NodeFrom] at h'
    | hash b x => simp [Trie.NodeFrom] at h'
    | leaf b k c => obtain ⟨_, _, _, e, _⟩ := h'; simp at e
    | ext b k' c' =>
      obtain ⟨_, _, _, e, ⟨x', h1', h2'⟩, y', z', h3', h4', h5'⟩ := h'
      cases e
      cases h1.unique h1'
      cases h2.unique h2'
      cases h3.unique h3'
      obtain ⟨e, rfl⟩ := h4.unique h4'
      have := ih h5 h5'
      rw [← e, setAnn_ann] at this
      rw [this]
      rfl
    | branch b cs v => obtain ⟨_, _, _, e, _⟩ := h'; simp at e
  | branch a cs v ih =>
    obtain ⟨n, name, val, rfl, ⟨x, h1, h2⟩, h3⟩ := h
    cases u with
    | empty b => simp [Trie.NodeFrom] at h'
    | hash b x => simp [Trie.NodeFrom] at h'
    | leaf b k c => obtain ⟨_, _, _, e, _⟩ := h'; simp at e
    | ext b k' c' => obtain ⟨_, _, _, e, _⟩ := h'; simp at e
    | branch b cs' v' =>
      obtain ⟨_, _, _, e, ⟨x', h1', h2'⟩, h3'⟩ := h'
      cases e
      cases h1.unique h1'
      cases ofBytes_inj (h3.unique h3')
      have : cs = cs' := by
        funext i
        obtain ⟨y, h4, h5⟩ := h2 i
        obtain ⟨y', h4', h5'⟩ := h2' i
        obtain ⟨e, rfl⟩ := h4.unique h4'
        have := ih i h5 h5'
        rwa [← e, setAnn_ann] at this
      rw [this]
      rfl

theorem Trie.ReadFrom.unique {cached : Bool} {t u : Trie (Option H256)} {d : SData}
    (h : t.ReadFrom cached d) (h' : u.ReadFrom cached d) : t = u := by
  obtain ⟨x, h1, h2⟩ := h
  obtain ⟨x', h1', h2'⟩ := h'
  obtain ⟨e, rfl⟩ := h1.unique h1'
  have := NodeFrom.unique h2 h2'
  rwa [← e, setAnn_ann] at this

/-! ### Programs that succeed exactly if the data are right -/

/-- In state `s` the program does not panic and keeps existing cells; if it succeeds, `A` holds, and
otherwise `G` does not. -/
def Prog.GivesAt {β : Type} (p : Prog K.Ann (Except DeError β)) (s : K.State) (A : K.State → β → Prop)
    (G : Prop) : Prop :=
  ∃ r s', p.run s = .ok (r, s') ∧ KeepS K s s' ∧ match r with
    | .ok x => A s' x
    | .error _ => ¬ G

theorem givesAt_ok {β : Type} {x : β} {s : K.State} {A : K.State → β → Prop} {G : Prop} (h : A s x) :
    (Prog.ret (.ok x) : Prog K.Ann _).GivesAt s A G := ⟨_, _, rfl, .refl _, h⟩

theorem givesAt_error {β : Type} {e : DeError} {s : K.State} {A : K.State → β → Prop} {G : Prop} (h : ¬ G) :
    (Prog.ret (.error e) : Prog K.Ann _).GivesAt s A G := ⟨_, _, rfl, .refl _, h⟩

theorem Prog.GivesAt.andThen {β γ : Type} {p : Prog K.Ann (Except DeError β)} {s : K.State}
    {A : K.State → β → Prop} {G H : Prop} {f : β → Prog K.Ann (Except DeError γ)}
    {B : K.State → γ → Prop} (hp : p.GivesAt s A G)
    (hf : ∀ x s', KeepS K s s' → A s' x → (f x).GivesAt s' B H) (hg : H → G) :
    (p.andThen f).GivesAt s B H := by
  obtain ⟨r, s', h1, h2, h3⟩ := hp
  show ∃ r s', ((p >>= _) : Prog K.Ann _).run s = .ok (r, s') ∧ _
  rw [Prog.bind_run, h1]
  cases r with
  | error e => exact ⟨.error e, s', rfl, h2, fun h => h3 (hg h)⟩
  | ok x =>
    obtain ⟨r, s'', h4, h5, h6⟩ := hf x s' h2 h3
    exact ⟨r, s'', h4, h2.trans h5, h6⟩

theorem Prog.GivesAt.mono {β : Type} {p : Prog K.Ann (Except DeError β)} {s : K.State}
    {A B : K.State → β → Prop} {G H : Prop} (hp : p.GivesAt s A G) (h : ∀ s x, A s x → B s x) (hg : H → G) :
    p.GivesAt s B H := by
  obtain ⟨r, s', h1, h2, h3⟩ := hp
  refine ⟨r, s', h1, h2, ?_⟩
  cases r with
  | error e => exact fun h => h3 (hg h)
  | ok x => exact h _ _ h3

/-- The property does not get lost. -/
def Stays {β : Type} (A : K.State → β → Prop) : Prop := ∀ s s' x, KeepS K s s' → A s x → A s' x

section
variable {β γ : Type} {n : Nat} {a b : String} {name : Fin n → String}

/-- What has been found of a field, if the fields with the given indices have the right name. -/
def Found (A : Fin n → K.State → β → Prop) (s : K.State) (l : List (Fin n)) (x0 x : Option β) : Prop :=
  (l = [] ∧ x = x0) ∨ ∃ i v, l = [i] ∧ x0 = none ∧ x = some v ∧ A i s v

/-- The field can be read. -/
def Readable (G : Fin n → Prop) (l : List (Fin n)) (x0 : Option β) : Prop :=
  l = [] ∨ ∃ i, l = [i] ∧ x0 = none ∧ G i

theorem visit2_gives {pa : Fin n → Prog K.Ann (Except DeError β)}
    {pb : Fin n → Prog K.Ann (Except DeError γ)} {A : Fin n → K.State → β → Prop} {GA : Fin n → Prop}
    {B : Fin n → K.State → γ → Prop} {GB : Fin n → Prop} (hab : a ≠ b)
    (ha : ∀ i s, (pa i).GivesAt s (A i) (GA i)) (hb : ∀ i s, (pb i).GivesAt s (B i) (GB i))
    (sa : ∀ i, Stays (A i)) (sb : ∀ i, Stays (B i)) :
    ∀ is x0 y0 s, (visit2 a pa b pb name is x0 y0).GivesAt s
      (fun s' r => Found A s' (is.filter (name · = a)) x0 r.1 ∧ Found B s' (is.filter (name · = b)) y0 r.2)
      (Readable GA (is.filter (name · = a)) x0 ∧ Readable GB (is.filter (name · = b)) y0) := by
  intro is
  induction is with
  | nil => intro x0 y0 s; exact givesAt_ok ⟨.inl ⟨rfl, rfl⟩, .inl ⟨rfl, rfl⟩⟩
  | cons i is ih =>
    intro x0 y0 s
    unfold visit2
    split
    · rename_i hn
      have hn' : name i ≠ b := fun e => hab (hn.symm.trans e)
      rw [List.filter_cons_of_pos (by simpa using hn), List.filter_cons_of_neg (by simpa using hn')]
      cases x0 with
      | some x0 =>
        refine givesAt_error ?_
        rintro ⟨h | ⟨j, _, h, _⟩, _⟩ <;> cases h
      | none =>
        refine (ha i s).andThen (fun v s' _ hv => ?_) ?_
        · obtain ⟨r, s'', h1, h2, h3⟩ := ih (some v) y0 s'
          refine ⟨r, s'', h1, h2, ?_⟩
          cases r with
          | error e =>
            rintro ⟨h | ⟨j, h, _, _⟩, h'⟩
            · cases h
            · exact h3 ⟨.inl (List.cons.inj h).2, h'⟩
          | ok r =>
            obtain ⟨⟨e1, e2⟩ | ⟨_, _, _, e, _⟩, h5⟩ := h3
            · exact ⟨.inr ⟨i, v, by rw [e1], rfl, e2, sa i _ _ _ h2 hv⟩, h5⟩
            · cases e
        · rintro ⟨h | ⟨j, h, _, hg⟩, _⟩
          · cases h
          · rw [(List.cons.inj h).1]; exact hg
    · rename_i hn
      rw [List.filter_cons_of_neg (by simpa using hn)]
      split
      · rename_i hn'
        rw [List.filter_cons_of_pos (by simpa using hn')]
        cases y0 with
        | some y0 =>
          refine givesAt_error ?_
          rintro ⟨_, h | ⟨j, _, h, _⟩⟩ <;> cases h
        | none =>
          refine (hb i s).andThen (fun v s' _ hv => ?_) ?_
          · obtain ⟨r, s'', h1, h2, h3⟩ := ih x0 (some v) s'
            refine ⟨r, s'', h1, h2, ?_⟩
            cases r with
            | error e =>
              rintro ⟨h', h | ⟨j, h, _, _⟩⟩
              · cases h
              · exact h3 ⟨h', .inl (List.cons.inj h).2⟩
            | ok r =>
              obtain ⟨h5, ⟨e1, e2⟩ | ⟨_, _, _, e, _⟩⟩ := h3
              · exact ⟨h5, .inr ⟨i, v, by rw [e1], rfl, e2, sb i _ _ _ h2 hv⟩⟩
              · cases e
          · rintro ⟨_, h | ⟨j, h, _, hg⟩⟩
            · cases h
            · rw [(List.cons.inj h).1]; exact hg
      · rename_i hn'
        rw [List.filter_cons_of_neg (by simpa using hn')]
        exact ih x0 y0 s

theorem filter_one {i : Fin n} :
    (List.finRange n).filter (name · = a) = [i] ↔ ∀ j, name j = a ↔ j = i := by
  constructor
  · intro h j
    have : j ∈ (List.finRange n).filter (name · = a) ↔ name j = a := by simp
    rw [h] at this
    simpa using this.symm
  · intro h
    refine List.perm_singleton.1 ((List.perm_ext_iff_of_nodup ((List.nodup_finRange n).filter _)
      (by simp)).2 fun j => ?_)
    simpa using h j

theorem filter_none : (List.finRange n).filter (name · = a) = [] ↔ ∀ j, name j ≠ a := by
  simp [List.filter_eq_nil_iff]

/-- Both fields are needed. -/
theorem both_gives {δ : Type} {pa : Fin n → Prog K.Ann (Except DeError β)}
    {pb : Fin n → Prog K.Ann (Except DeError γ)} {A : Fin n → K.State → β → Prop} {GA : Fin n → Prop}
    {B : Fin n → K.State → γ → Prop} {GB : Fin n → Prop} (hab : a ≠ b)
    (ha : ∀ i s, (pa i).GivesAt s (A i) (GA i)) (hb : ∀ i s, (pb i).GivesAt s (B i) (GB i))
    (sa : ∀ i, Stays (A i)) (sb : ∀ i, Stays (B i)) {f : β × γ → δ} {C : K.State → δ → Prop} {H : Prop}
    (hC : ∀ s i j x y, (∀ k, name k = a ↔ k = i) → (∀ k, name k = b ↔ k = j) → A i s x → B j s y →
      C s (f (x, y)))
    (hH : H → ∃ i j, (∀ k, name k = a ↔ k = i) ∧ (∀ k, name k = b ↔ k = j) ∧ GA i ∧ GB j) (s : K.State) :
    ((visit2 a pa b pb name (List.finRange n) none none).andThen fun r =>
      .ret ((both r).map f)).GivesAt s C H := by
  refine (visit2_gives hab ha hb sa sb _ _ _ _).andThen (fun r s' _ h => ?_) fun h => ?_
  · obtain ⟨r1, r2⟩ := r
    obtain ⟨h1, h2⟩ := h
    rcases h1 with ⟨h1, e1⟩ | ⟨i, x, h1, _, e1, g1⟩
    · cases e1
      refine givesAt_error fun h => ?_
      obtain ⟨i, j, hi, _⟩ := hH h
      exact filter_none.1 h1 i ((hi i).2 rfl)
    · rcases h2 with ⟨h2, e2⟩ | ⟨j, y, h2, _, e2, g2⟩
      · cases e1
        cases e2
        refine givesAt_error fun h => ?_
        obtain ⟨i, j, _, hj, _⟩ := hH h
        exact filter_none.1 h2 j ((hj j).2 rfl)
      · cases e1
        cases e2
        exact givesAt_ok (hC _ _ _ _ _ (filter_one.1 h1) (filter_one.1 h2) g1 g2)
  · obtain ⟨i, j, hi, hj, gi, gj⟩ := hH h
    exact ⟨.inr ⟨i, filter_one.2 hi, rfl, gi⟩, .inr ⟨j, filter_one.2 hj, rfl, gj⟩⟩

end

/-! ### The parts -/

theorem deU8_exact (d : SData) (x : UInt8) : deU8 d = .ok x ↔ d = .num x.toNat := by
  constructor
  · intro h
    cases d with
    | num m =>
      simp only [deU8] at h
      split at h
      · rename_i hm
        cases h
        rw [UInt8.toNat_ofNat', Nat.mod_eq_of_lt hm]
      · cases h
    | _ => cases h
  · rintro rfl; exact deU8_num x

theorem deElems_exact {n : Nat} (elem : Fin n → SData) : ∀ is b, deElems elem is = .ok b →
    is.map elem = b.map fun x => .num x.toNat := by
  intro is
  induction is with
  | nil => intro b h; cases h; rfl
  | cons i is ih =>
    intro b h
    rw [deElems] at h
    cases h1 : deU8 (elem i) with
    | error e => rw [h1] at h; cases h
    | ok x =>
      cases h2 : deElems elem is with
      | error e => rw [h1, h2] at h; cases h
      | ok xs =>
        rw [h1, h2] at h
        cases h
        rw [List.map_cons, List.map_cons, ih _ h2, (deU8_exact _ _).1 h1]

theorem deBytes_exact (d : SData) (b : Bytes) : deBytes d = .ok b ↔ d = ofBytes b := by
  constructor
  · intro h
    cases d with
    | seq n elem =>
      have h := deElems_exact elem _ _ h
      have hl : n = b.length := by simpa using congrArg List.length h
      subst hl
      unfold ofBytes
      congr 1
      funext i
      have := congrArg (·[i.1]?) h
      simpa using this
    | _ => cases h
  · rintro rfl; exact deBytes_ofBytes b

theorem deUsize_exact (d : SData) (n : Nat) : deUsize d = .ok n ↔ d = .num n ∧ n < 2 ^ 64 := by
  constructor
  · intro h
    cases d with
    | num m =>
      simp only [deUsize] at h
      split at h
      · cases h; exact ⟨rfl, by assumption⟩
      · cases h
    | _ => cases h
  · rintro ⟨rfl, h⟩; exact if_pos h

theorem deWord_exact (d : SData) (x : U512) : deWord d = .ok x ↔ d = .word x := by
  constructor
  · intro h
    cases d <;> cases h
    rfl
  · rintro rfl; rfl

theorem deCell_exact (d : SData) (o : Option H256) : deCell d = .ok o ↔ d = ofHash o := by
  constructor
  · intro h
    cases d with
    | none => cases h; rfl
    | some d => cases d <;> cases h; rfl
    | _ => cases h
  · rintro rfl; cases o <;> rfl

theorem gives_ret {β : Type} (r : Except DeError β) (s : K.State) :
    (Prog.ret r : Prog K.Ann _).GivesAt s (fun _ x => r = .ok x) (∃ x, r = .ok x) := by
  cases r with
  | ok x => exact givesAt_ok rfl
  | error e => exact givesAt_error (by rintro ⟨_, h⟩; cases h)

theorem stays_const {β : Type} (p : β → Prop) : Stays (K := K) fun _ x => p x := fun _ _ _ _ h => h

theorem gives_bytes (d : SData) (s : K.State) :
    (Prog.ret (deBytes d) : Prog K.Ann _).GivesAt s (fun _ b => d = ofBytes b) (∃ b, d = ofBytes b) := by
  have := gives_ret (deBytes d) s
  simpa only [deBytes_exact] using this

theorem nibbles_gives (d : SData) (s : K.State) :
    (deNibbles d : Prog K.Ann _).GivesAt s (fun _ k => NibblesFrom d k) (∃ k, NibblesFrom d k) := by
  cases d with
  | struct n name val =>
    rw [deNibbles]
    refine both_gives (by decide) (fun i s => gives_ret (deUsize (val i)) s)
      (fun i s => gives_ret (deWord (val i)) s) (fun _ => stays_const _) (fun _ => stays_const _) ?_ ?_ s
    · intro s i j c p hi hj h1 h2
      obtain ⟨g1, g1'⟩ := (deUsize_exact _ _).1 h1
      exact ⟨n, name, val, rfl, ⟨i, g1, hi⟩, g1', ⟨j, (deWord_exact _ _).1 h2, hj⟩⟩
    · rintro ⟨k, _, _, _, e, ⟨i, e1, hi⟩, hk, ⟨j, e2, hj⟩⟩
      cases e
      exact ⟨i, j, hi, hj, ⟨_, (deUsize_exact _ _).2 ⟨e1, hk⟩⟩, ⟨_, (deWord_exact _ _).2 e2⟩⟩
  | _ => exact givesAt_error (by rintro ⟨k, _, _, _, e, _⟩; cases e)

/-! ### Tries -/

/-- The node is that of the trie the data stand for. -/
def NodeIs (d : SData) (s : K.State) (node : K.Ann → Trie K.Ann) : Prop :=
  ∃ u : Trie (Option H256), u.NodeFrom K.cells d ∧
    ∀ s', KeepS K s s' → ∀ a, (node a).caches (K.get s') = u.setAnn (K.get s' a)

/-- The wrapper, before it is made, is that of the trie the data stand for. -/
def WrapIs (d : SData) (s : K.State) (r : Pending K.Ann) : Prop :=
  ∃ u : Trie (Option H256), u.ReadFrom K.cells d ∧ u.ann = r.2 ∧
    ∀ s', KeepS K s s' → ∀ a, (r.1 a).caches (K.get s') = u.setAnn (K.get s' a)

/-- The trie is the one the data stand for. -/
def TrieIs (d : SData) (s : K.State) (t : Trie K.Ann) : Prop :=
  ∃ u : Trie (Option H256), u.ReadFrom K.cells d ∧ ∀ s', KeepS K s s' → t.caches (K.get s') = u

/-- The tries are the ones the data stand for. -/
def ChildrenAre (d : SData) (s : K.State) (cs : Fin 16 → Trie K.Ann) : Prop :=
  ∃ (ds : Fin 16 → SData) (us : Fin 16 → Trie (Option H256)), d = .seq 16 ds ∧
    (∀ i, (us i).ReadFrom K.cells (ds i)) ∧
    ∀ s', KeepS K s s' → ∀ i, (cs i).caches (K.get s') = us i

theorem stays_node (d : SData) : Stays (K := K) (NodeIs d) := by
  rintro s s' x h ⟨u, h1, h2⟩
  exact ⟨u, h1, fun s'' h' => h2 s'' (h.trans h')⟩

theorem stays_trie (d : SData) : Stays (K := K) (TrieIs d) := by
  rintro s s' x h ⟨u, h1, h2⟩
  exact ⟨u, h1, fun s'' h' => h2 s'' (h.trans h')⟩

theorem stays_children (d : SData) : Stays (K := K) (ChildrenAre d) := by
  rintro s s' x h ⟨ds, us, h1, h2, h3⟩
  exact ⟨ds, us, h1, h2, fun s'' h' => h3 s'' (h.trans h')⟩

theorem used_alloc (s : K.State) : K.used (K.trieKind.alloc s).2 (K.trieKind.alloc s).1 := by
  cases K with
  | standard => trivial
  | hashed => exact Nat.lt_succ_self _

theorem finish_gives {d : SData} {r : Pending K.Ann} {s : K.State} {G : Prop} (h : WrapIs d s r) :
    r.finish.GivesAt s (TrieIs d) G := by
  obtain ⟨u, h1, h2, h3⟩ := h
  obtain ⟨node, o⟩ := r
  cases h2
  suffices ∃ t s', (Pending.finish (node, u.ann)).run s = .ok (.ok t, s') ∧ KeepS K s s' ∧ ∃ a, t = node a ∧
      K.used s' a ∧ K.get s' a = u.ann by
    obtain ⟨t, s', g1, g2, a, rfl, g3, g4⟩ := this
    refine ⟨.ok (node a), s', g1, g2, u, h1, fun s'' hk => ?_⟩
    rw [h3 s'' (g2.trans hk), show K.get s'' a = u.ann from ((hk a g3).2).trans g4, setAnn_ann]
  cases ho : u.ann with
  | none =>
    refine ⟨_, _, rfl, keepS_alloc s, _, rfl, used_alloc s, ?_⟩
    cases K with
    | standard => rfl
    | hashed => exact upd_same _ _ _
  | some x =>
    refine ⟨_, _, rfl, keepS_set s _, _, rfl, ?_, ?_⟩
    · cases K with
      | standard => trivial
      | hashed => exact Nat.lt_succ_self _
    · cases K with
      | standard =>
        obtain ⟨y, hy, _⟩ := h1
        have : u.ann = none := hy.2
        rw [this] at ho
        cases ho
      | hashed => exact upd_same _ _ _

theorem trie_gives {d : SData} (h : ∀ s : K.State,
    (deWrap K.cells d).GivesAt s (WrapIs d) (∃ u, Trie.ReadFrom K.cells u d)) (s : K.State) :
    ((deWrap K.cells d).andThen fun r => r.finish).GivesAt s (TrieIs d) (∃ u, Trie.ReadFrom K.cells u d) :=
  (h s).andThen (fun _ _ _ hr => finish_gives hr) id

theorem collectE_gives {n : Nat} {p : Fin n → Prog K.Ann (Except DeError (Trie K.Ann))} {ds : Fin n → SData}
    (h : ∀ i s, (p i).GivesAt s (TrieIs (ds i)) (∃ u, Trie.ReadFrom K.cells u (ds i))) (s : K.State) :
    (Prog.collectE n p).GivesAt s (fun s' cs => ∀ i, TrieIs (ds i) s' (cs i))
      (∀ i, ∃ u, Trie.ReadFrom K.cells u (ds i)) := by
  induction n generalizing s with
  | zero => exact givesAt_ok fun i => i.elim0
  | succ n ih =>
    refine (h 0 s).andThen (fun x s1 _ hx => ?_) fun h => h 0
    refine (ih (fun i => h i.succ) s1).andThen (fun f s2 hk hf => ?_) fun h i => h i.succ
    refine givesAt_ok fun i => ?_
    induction i using Fin.cases with
    | zero => exact stays_trie _ _ _ _ hk hx
    | succ i => exact hf i

theorem all_gives (d : SData) :
    (∀ s : K.State, (deWrap K.cells d).GivesAt s (WrapIs d) (∃ u, Trie.ReadFrom K.cells u d)) ∧
    (∀ s : K.State, (deNode K.cells d).GivesAt s (NodeIs d) (∃ u, Trie.NodeFrom K.cells u d)) ∧
    (∀ name, ∀ s : K.State, (deVariant K.cells name d).GivesAt s (NodeIs (.variant name d))
      (∃ u, Trie.NodeFrom K.cells u (.variant name d))) ∧
    (∀ s : K.State, (deChildren K.cells d).GivesAt s (ChildrenAre d)
      (∃ (ds : Fin 16 → SData) (us : Fin 16 → Trie (Option H256)), d = .seq 16 ds ∧
        ∀ i, Trie.ReadFrom K.cells (us i) (ds i))) := by
  have noWrap : ∀ {d : SData}, (∀ n name val, d ≠ .struct n name val) → (∀ name x, d ≠ .variant name x) →
      ¬ ∃ u, Trie.ReadFrom K.cells u d := by
    rintro d h1 h2 ⟨u, x, h3, h4⟩
    unfold WrapFrom at h3
    split at h3
    · obtain ⟨n, name, val, e, _⟩ := h3
      exact h1 _ _ _ e
    · obtain ⟨rfl, _⟩ := h3
      cases u with
      | empty => exact h2 _ _ h4
      | hash => exact h2 _ _ h4
      | leaf => obtain ⟨_, _, _, e, _⟩ := h4; exact h2 _ _ e
      | ext => obtain ⟨_, _, _, e, _⟩ := h4; exact h2 _ _ e
      | branch => obtain ⟨_, _, _, e, _⟩ := h4; exact h2 _ _ e
  have noNode : ∀ {d : SData}, (∀ name x, d ≠ .variant name x) → ¬ ∃ u, Trie.NodeFrom K.cells u d := by
    rintro d h2 ⟨u, h4⟩
    cases u with
    | empty => exact h2 _ _ h4
    | hash => exact h2 _ _ h4
    | leaf => obtain ⟨_, _, _, e, _⟩ := h4; exact h2 _ _ e
    | ext => obtain ⟨_, _, _, e, _⟩ := h4; exact h2 _ _ e
    | branch => obtain ⟨_, _, _, e, _⟩ := h4; exact h2 _ _ e
  have noVariant : ∀ {name : String} {d : SData}, ¬ (name = "Empty" ∧ d = .unit) →
      (∀ h, ¬ (name = "Hash" ∧ d = .digest h)) →
      (∀ n f g, ¬ ((name = "Leaf" ∨ name = "Extension" ∨ name = "Branch") ∧ d = .struct n f g)) →
      ¬ ∃ u, Trie.NodeFrom K.cells u (.variant name d) := by
    rintro name d h1 h2 h3 ⟨u, h4⟩
    cases u with
    | empty => cases h4; exact h1 ⟨rfl, rfl⟩
    | hash => cases h4; exact h2 _ ⟨rfl, rfl⟩
    | leaf => obtain ⟨_, _, _, e, _⟩ := h4; cases e; exact h3 _ _ _ ⟨.inl rfl, rfl⟩
    | ext => obtain ⟨_, _, _, e, _⟩ := h4; cases e; exact h3 _ _ _ ⟨.inr (.inl rfl), rfl⟩
    | branch => obtain ⟨_, _, _, e, _⟩ := h4; cases e; exact h3 _ _ _ ⟨.inr (.inr rfl), rfl⟩
  have noChildren : ∀ {d : SData}, (∀ ds, d ≠ .seq 16 ds) →
      ¬ ∃ (ds : Fin 16 → SData) (us : Fin 16 → Trie (Option H256)), d = .seq 16 ds ∧
        ∀ i, Trie.ReadFrom K.cells (us i) (ds i) := by
    rintro d h ⟨ds, _, e, _⟩
    exact h ds e
  induction d with
  | seq n elem ih =>
    refine ⟨fun s => givesAt_error (noWrap (by simp) (by simp)),
      fun s => givesAt_error (noNode (by simp)), fun name s => ?_, fun s => ?_⟩
    · rw [deVariant]
      split <;> exact givesAt_error (noVariant (by simp) (by simp) (by simp))
      all_goals simp
    · rw [deChildren]
      split
      · rename_i hn
        subst hn
        refine (collectE_gives (fun i s => trie_gives (ih i).1 s) s).mono ?_ ?_
        · intro s' cs h
          choose us h1 h2 using h
          exact ⟨elem, us, rfl, h1, fun s'' hk i => h2 i s'' hk⟩
        · rintro ⟨ds, us, e, h⟩
          cases e
          exact fun i => ⟨us i, h i⟩
      · rename_i hn
        refine givesAt_error (noChildren ?_)
        rintro ds e
        cases e
        exact hn rfl
  | struct n name val ih =>
    refine ⟨fun s => ?_, fun s => givesAt_error (noNode (by simp)), fun v s => ?_,
      fun s => givesAt_error (noChildren (by simp))⟩
    · rw [deWrap]
      split
      · rename_i hc
        refine (visit2_gives (by decide) (fun i s => (ih i).2.1 s) (fun i s => gives_ret (deCell (val i)) s)
          (fun _ => stays_node _) (fun _ => stays_const _) _ _ _ _).andThen ?_ ?_
        · rintro ⟨r1, r2⟩ s' _ ⟨h1, h2⟩
          rcases h1 with ⟨h1, e1⟩ | ⟨i, x, h1, _, e1, u, g1, g2⟩
          · cases e1
            refine givesAt_error ?_
            rintro ⟨u, x, h3, _⟩
            rw [WrapFrom, if_pos hc] at h3
            obtain ⟨_, _, _, e, ⟨i, _, hi⟩, _⟩ := h3
            cases e
            exact filter_none.1 h1 i ((hi i).2 rfl)
          · cases e1
            have hn : Field name val "node" (val i) := ⟨i, rfl, filter_one.1 h1⟩
            have key : ∀ o, (Field name val "hash" (ofHash o) ∨ (∀ j, name j ≠ "hash") ∧ o = none) →
                WrapIs (.struct n name val) s' (x, o) := by
              intro o ho
              refine ⟨u.setAnn o, ⟨val i, ?_, NodeFrom.setAnn g1 o⟩, ann_setAnn u o, fun s'' hk a => ?_⟩
              · rw [WrapFrom, if_pos hc, ann_setAnn]
                exact ⟨n, name, val, rfl, hn, ho⟩
              · rw [g2 s'' hk a, setAnn_setAnn]
            rcases h2 with ⟨h2, e2⟩ | ⟨j, y, h2, _, e2, g3⟩
            · cases e2
              exact givesAt_ok (key none (.inr ⟨filter_none.1 h2, rfl⟩))
            · cases e2
              exact givesAt_ok (key y (.inl ⟨j, (deCell_exact _ _).1 g3, filter_one.1 h2⟩))
        · rintro ⟨u, x, h3, h4⟩
          rw [WrapFrom, if_pos hc] at h3
          obtain ⟨_, _, _, e, ⟨i, rfl, hi⟩, ho⟩ := h3
          cases e
          refine ⟨.inr ⟨i, filter_one.2 hi, rfl, u, h4⟩, ?_⟩
          rcases ho with ⟨j, ho, hj⟩ | ⟨hj, _⟩
          · exact .inr ⟨j, filter_one.2 hj, rfl, _, (deCell_exact _ _).2 ho⟩
          · exact .inl (filter_none.2 hj)
      · rename_i hc
        refine givesAt_error ?_
        rintro ⟨u, x, h3, h4⟩
        rw [WrapFrom, if_neg hc] at h3
        obtain ⟨rfl, _⟩ := h3
        exact noNode (by simp) ⟨u, h4⟩
    · rw [deVariant]
      split
      · rename_i hv
        subst hv
        refine both_gives (by decide) (fun i s => (ih i).2.2.2 s) (fun i s => gives_bytes (val i) s)
          (fun _ => stays_children _) (fun _ => stays_const _) ?_ ?_ s
        · rintro s i j cs v hi hj ⟨ds, us, e, h1, h2⟩ hb
          refine ⟨.branch none us v, ⟨n, name, val, rfl, ⟨ds, ⟨i, e, hi⟩, fun i => h1 i⟩, ⟨j, hb, hj⟩⟩,
            fun s' hk a => ?_⟩
          rw [Trie.caches]
          rw [show (fun i => (cs i).caches (K.get s')) = us from funext fun i => h2 s' hk i]
          rfl
        · rintro ⟨u, h⟩
          cases u with
          | branch a us v =>
            obtain ⟨_, _, _, e, ⟨ds, ⟨i, hd, hi⟩, h⟩, ⟨j, hb, hj⟩⟩ := h
            cases e
            exact ⟨i, j, hi, hj, ⟨ds, us, hd, h⟩, ⟨v, hb⟩⟩
          | empty => simp [Trie.NodeFrom] at h
          | hash => simp [Trie.NodeFrom] at h
          | leaf => obtain ⟨_, _, _, e, _⟩ := h; simp at e
          | ext => obtain ⟨_, _, _, e, _⟩ := h; simp at e
      split
      · rename_i hv
        subst hv
        refine both_gives (by decide) (fun i s => nibbles_gives (val i) s)
          (fun i s => trie_gives (ih i).1 s) (fun _ => stays_const _) (fun _ => stays_trie _) ?_ ?_ s
        · rintro s i j k c hi hj hk ⟨u, ⟨y, h1, h2⟩, h3⟩
          refine ⟨.ext none k u, ⟨n, name, val, rfl, ⟨val i, ⟨i, rfl, hi⟩, hk⟩, val j, y, ⟨j, rfl, hj⟩, h1,
            h2⟩, fun s' hk a => ?_⟩
          rw [Trie.caches, h3 s' hk]
          rfl
        · rintro ⟨u, h⟩
          cases u with
          | ext a k c =>
            obtain ⟨_, _, _, e, ⟨_, ⟨i, rfl, hi⟩, hk⟩, _, y, ⟨j, rfl, hj⟩, h1, h2⟩ := h
            cases e
            exact ⟨i, j, hi, hj, ⟨k, hk⟩, ⟨c, y, h1, h2⟩⟩
          | empty => simp [Trie.NodeFrom] at h
          | hash => simp [Trie.NodeFrom] at h
          | leaf => obtain ⟨_, _, _, e, _⟩ := h; simp at e
          | branch => obtain ⟨_, _, _, e, _⟩ := h; simp at e
      split
      · rename_i hv
        subst hv
        refine both_gives (by decide) (fun i s => nibbles_gives (val i) s)
          (fun i s => gives_bytes (val i) s) (fun _ => stays_const _) (fun _ => stays_const _) ?_ ?_ s
        · rintro s i j k v hi hj hk hb
          exact ⟨.leaf none k v, ⟨n, name, val, rfl, ⟨val i, ⟨i, rfl, hi⟩, hk⟩, ⟨j, hb, hj⟩⟩,
            fun s' _ a => rfl⟩
        · rintro ⟨u, h⟩
          cases u with
          | leaf a k v =>
            obtain ⟨_, _, _, e, ⟨_, ⟨i, rfl, hi⟩, hk⟩, ⟨j, hb, hj⟩⟩ := h
            cases e
            exact ⟨i, j, hi, hj, ⟨k, hk⟩, ⟨v, hb⟩⟩
          | empty => simp [Trie.NodeFrom] at h
          | hash => simp [Trie.NodeFrom] at h
          | ext => obtain ⟨_, _, _, e, _⟩ := h; simp at e
          | branch => obtain ⟨_, _, _, e, _⟩ := h; simp at e
      have : ¬ (v = "Leaf" ∨ v = "Extension" ∨ v = "Branch") := by
        rintro (h | h | h) <;> contradiction
      split <;> exact givesAt_error (noVariant (by simp) (by simp) (fun _ _ _ h => this h.1))
  | variant name d ih =>
    refine ⟨fun s => ?_, fun s => ih.2.2.1 name s, fun v s => ?_,
      fun s => givesAt_error (noChildren (by simp))⟩
    · rw [deWrap]
      split
      · rename_i hc
        refine givesAt_error ?_
        rintro ⟨u, x, h3, h4⟩
        rw [WrapFrom, if_pos hc] at h3
        obtain ⟨_, _, _, e, _⟩ := h3
        cases e
      · rename_i hc
        refine (ih.2.2.1 name s).andThen ?_ ?_
        · rintro node s' _ ⟨u, h1, h2⟩
          refine givesAt_ok ⟨u.setAnn none, ⟨_, ?_, NodeFrom.setAnn h1 none⟩, ann_setAnn _ _, ?_⟩
          · rw [WrapFrom, if_neg hc, ann_setAnn]
            exact ⟨rfl, rfl⟩
          · intro s'' hk a
            rw [h2 s'' hk, setAnn_setAnn]
        · rintro ⟨u, x, h3, h4⟩
          rw [WrapFrom, if_neg hc] at h3
          obtain ⟨rfl, _⟩ := h3
          exact ⟨u, h4⟩
    · rw [deVariant]
      split <;> exact givesAt_error (noVariant (by simp) (by simp) (by simp))
      all_goals simp
  | unit =>
    refine ⟨fun s => givesAt_error (noWrap (by simp) (by simp)), fun s => givesAt_error (noNode (by simp)),
      fun v s => ?_, fun s => givesAt_error (noChildren (by simp))⟩
    rw [deVariant]
    split
    · rename_i hv
      subst hv
      exact givesAt_ok ⟨.empty none, rfl, fun _ _ _ => rfl⟩
    · rename_i hv
      split <;> exact givesAt_error (noVariant (fun h => hv h.1) (by simp) (by simp))
  | digest x =>
    refine ⟨fun s => givesAt_error (noWrap (by simp) (by simp)), fun s => givesAt_error (noNode (by simp)),
      fun v s => ?_, fun s => givesAt_error (noChildren (by simp))⟩
    rw [deVariant]
    split
    · rename_i hv
      subst hv
      exact givesAt_ok ⟨.hash none x, rfl, fun _ _ _ => rfl⟩
    · rename_i hv
      split <;> exact givesAt_error (noVariant (by simp) (fun _ h => hv h.1) (by simp))
  | _ =>
    refine ⟨fun s => givesAt_error (noWrap (by simp) (by simp)), fun s => givesAt_error (noNode (by simp)),
      fun v s => ?_, fun s => givesAt_error (noChildren (by simp))⟩
    rw [deVariant]
    split <;> exact givesAt_error (noVariant (by simp) (by simp) (by simp))
    all_goals simp

/-- The trie that is read is the one the data stand for; if they stand for none, there is an error. -/
theorem de_exact (d : SData) (s : K.State) (u : Trie (Option H256)) :
    (∃ t s', (Trie.de K.cells d).run s = .ok (.ok t, s') ∧ t.caches (K.get s') = u) ↔
      u.ReadFrom K.cells d := by
  obtain ⟨r, s', h1, h2, h3⟩ := trie_gives (all_gives (K := K) d).1 s
  constructor
  · rintro ⟨t, s'', g1, g2⟩
    rw [Trie.de, h1] at g1
    cases g1
    obtain ⟨u', g3, g4⟩ := h3
    rw [← g2, g4 s' (.refl _)]
    exact g3
  · intro h
    cases r with
    | error e => exact (h3 ⟨u, h⟩).elim
    | ok t =>
      obtain ⟨u', g3, g4⟩ := h3
      exact ⟨t, s', h1, (g4 s' (.refl _)).trans (g3.unique h)⟩

/-! ### What is written stands for the trie -/

theorem field_first {a b : String} (hab : a ≠ b) (x y : SData) :
    Field (fun i : Fin 2 => if i = 0 then a else b) (fun i => if i = 0 then x else y) a x := by
  refine ⟨0, rfl, fun j => ?_⟩
  by_cases hj : j = 0
  · simp [hj]
  · simp [hj, hab.symm]

theorem field_second {a b : String} (hab : a ≠ b) (x y : SData) :
    Field (fun i : Fin 2 => if i = 0 then a else b) (fun i => if i = 0 then x else y) b y := by
  refine ⟨1, rfl, fun j => ?_⟩
  by_cases hj : j = 0
  · simp [hj, hab]
  · simp [hj]; omega

theorem wrapFrom_data {cached : Bool} {o : Option H256} (h : cached = false → o = none) (x : SData) :
    WrapFrom cached (wrapData cached o x) o x := by
  cases cached with
  | false => exact ⟨rfl, h rfl⟩
  | true => exact ⟨_, _, _, rfl, field_first (by decide) _ _, .inl (field_second (by decide) _ _)⟩

theorem nibblesFrom_data {k : Nibbles} (h : k.count < 2 ^ 64) : NibblesFrom (ofNibbles k) k :=
  ⟨_, _, _, rfl, field_first (by decide) _ _, h, field_second (by decide) _ _⟩

theorem ann_caches {α : Type} (get : α → Option H256) (t : Trie α) : (t.caches get).ann = get t.ann := by
  cases t <;> rfl

theorem nodeFrom_data {α : Type} {cached : Bool} {get : α → Option H256}
    (h : cached = false → ∀ a, get a = none) {t : Trie α} (ht : t.Counts) :
    (t.caches get).NodeFrom cached (t.nodeData cached get) := by
  induction t with
  | empty a => rfl
  | hash a x => rfl
  | leaf a k v =>
    exact ⟨_, _, _, rfl, ⟨_, field_first (by decide) _ _, nibblesFrom_data ht⟩, field_second (by decide) _ _⟩
  | ext a k c ih =>
    refine ⟨_, _, _, rfl, ⟨_, field_first (by decide) _ _, nibblesFrom_data ht.1⟩, _, _,
      field_second (by decide) _ _, ?_, ih ht.2⟩
    rw [ann_caches]
    exact wrapFrom_data (fun e => h e _) _
  | branch a cs v ih =>
    refine ⟨_, _, _, rfl, ⟨_, field_first (by decide) _ _, fun i => ⟨_, ?_, ih i (ht i)⟩⟩,
      field_second (by decide) _ _⟩
    rw [ann_caches]
    exact wrapFrom_data (fun e => h e _) _

end EthTrie
