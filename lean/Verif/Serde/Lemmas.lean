import Verif.Serde.Model
import Verif.Sys.LiveInv

/-!
# Serialised tries are read back
-/

namespace EthTrie

open Nibbles Spec
open SData (fields2 ofBytes ofHash ofNibbles)

variable {α S : Type} [K : TrieKind α S] {cached : Bool}

/-! ### What serialisation produces -/

/-- The data of a wrapper. -/
def wrapData (cached : Bool) (o : Option H256) (node : SData) : SData :=
  if cached then fields2 "node" node "hash" (ofHash o) else node

/-- The data of the node of a trie. -/
def Trie.nodeData (cached : Bool) (get : α → Option H256) : Trie α → SData
  | .empty _ => .variant "Empty" .unit
  | .hash _ h => .variant "Hash" (.digest h)
  | .branch _ cs v => .variant "Branch" (fields2 "children"
      (.seq 16 fun i => wrapData cached (get (cs i).ann) ((cs i).nodeData cached get)) "value" (ofBytes v))
  | .ext _ n c => .variant "Extension" (fields2 "nibbles" (ofNibbles n) "child"
      (wrapData cached (get c.ann) (c.nodeData cached get)))
  | .leaf _ n v => .variant "Leaf" (fields2 "nibbles" (ofNibbles n) "value" (ofBytes v))

/-- The data of a trie. -/
def Trie.data (cached : Bool) (get : α → Option H256) (t : Trie α) : SData :=
  wrapData cached (get t.ann) (t.nodeData cached get)

theorem nodeData_setAnn (get : α → Option H256) (t : Trie α) (a : α) :
    (t.setAnn a).nodeData cached get = t.nodeData cached get := by cases t <;> rfl

theorem serWrap_run (a : α) (d : SData) (s : S) :
    (serWrap cached a d).run s = .ok (wrapData cached (K.cacheGet a s) d, s) := by
  cases cached <;> rfl

theorem collect_run {β : Type} (s : S) : ∀ (n : Nat) (p : Fin n → Prog α β) (f : Fin n → β),
    (∀ i, (p i).run s = .ok (f i, s)) → (Prog.collect n p).run s = .ok (f, s) := by
  intro n
  induction n with
  | zero => intro p f _; simp only [Prog.collect, Prog.run]; congr; funext i; exact i.elim0
  | succ n ih =>
    intro p f h
    show ((p 0) >>= fun x => (Prog.collect n fun i => p i.succ) >>= _).run s = _
    rw [Prog.bind_run, h 0]
    simp only
    rw [Prog.bind_run, ih _ (fun i => f i.succ) fun i => h i.succ]
    simp only [Prog.run]
    congr
    funext i
    refine Fin.cases rfl (fun i => rfl) i

theorem ser_run (t : Trie α) (s : S) :
    (t.ser cached).run s = .ok (t.data cached (fun a => K.cacheGet a s), s) := by
  induction t with
  | empty a => exact serWrap_run _ _ _
  | hash a h => exact serWrap_run _ _ _
  | leaf a n v => exact serWrap_run _ _ _
  | ext a n c ih =>
    show ((Trie.ser cached c) >>= _).run s = _
    rw [Prog.bind_run, ih]
    exact serWrap_run _ _ _
  | branch a cs v ih =>
    show ((Prog.collect 16 fun i => Trie.ser cached (cs i)) >>= _).run s = _
    rw [Prog.bind_run, collect_run s 16 _ _ ih]
    exact serWrap_run _ _ _

/-! ### Reading it -/

theorem andThen_run {β γ : Type} (p : Prog α (Except DeError β)) (f : β → Prog α (Except DeError γ))
    {s s' : S} {x : β} (h : p.run s = .ok (.ok x, s')) : (p.andThen f).run s = (f x).run s' := by
  show (p >>= _).run s = _
  rw [Prog.bind_run, h]

theorem andThen_ok {β γ : Type} (x : β) (f : β → Prog α (Except DeError γ)) :
    (Prog.ret (.ok x) : Prog α _).andThen f = f x := rfl

theorem visit2_fields {β γ δ : Type} {a b : String} (hab : b ≠ a) (x y : SData)
    (pa : SData → Prog α (Except DeError β)) (pb : SData → Prog α (Except DeError γ))
    (f : Option β × Option γ → Prog α (Except DeError δ)) {val : Fin 2 → SData}
    (hv : val = fun i => if i = 0 then x else y) :
    (visit2 a (fun i => pa (val i)) b (fun i => pb (val i)) (fun i : Fin 2 => if i = 0 then a else b)
      (List.finRange 2) none none).andThen f =
      ((pa x).andThen fun u => (pb y).andThen fun v => .ret (.ok (some u, some v))).andThen f := by
  subst hv
  have e : List.finRange 2 = [0, 1] := rfl
  rw [e]
  have h1 : (1 : Fin 2) ≠ 0 := by decide
  simp only [visit2, if_true, if_neg h1, if_neg hab]

theorem deU8_num (x : UInt8) : deU8 (.num x.toNat) = .ok x := by
  have : x.toNat < 256 := x.toNat_lt
  simp [deU8, this]

theorem deBytes_ofBytes (b : Bytes) : deBytes (ofBytes b) = .ok b := by
  have key : ∀ (is : List (Fin b.length)), deElems (fun i : Fin b.length => .num b[i].toNat) is =
      .ok (is.map fun i => b[i]) := by
    intro is
    induction is with
    | nil => rfl
    | cons i is ih => simp only [deElems, deU8_num, ih, List.map_cons]; rfl
  show deElems _ _ = _
  rw [key]
  congr 1
  exact List.map_getElem_finRange b

theorem deNibbles_ofNibbles {n : Nibbles} (h : n.count < 2 ^ 64) :
    (deNibbles (ofNibbles n) : Prog α _) = .ret (.ok n) := by
  show Prog.andThen _ _ = _
  rw [visit2_fields (by decide) _ _ (fun d => .ret (deUsize d)) (fun d => .ret (deWord d)) _ rfl]
  simp only [deUsize, h, if_true]
  rfl

theorem visit2_run {β γ : Type} {a b : String} (hab : b ≠ a) (x y : SData)
    (pa : SData → Prog α (Except DeError β)) (pb : SData → Prog α (Except DeError γ))
    {s s' s'' : S} {u : β} {v : γ} (h1 : (pa x).run s = .ok (.ok u, s'))
    (h2 : (pb y).run s' = .ok (.ok v, s'')) {val : Fin 2 → SData}
    (hv : val = fun i => if i = 0 then x else y) :
    (visit2 a (fun i => pa (val i)) b (fun i => pb (val i)) (fun i : Fin 2 => if i = 0 then a else b)
      (List.finRange 2) none none).run s = .ok (.ok (some u, some v), s'') := by
  subst hv
  have e : List.finRange 2 = [0, 1] := rfl
  rw [e]
  have h0 : (1 : Fin 2) ≠ 0 := by decide
  simp only [visit2, if_true, if_neg h0, if_neg hab]
  rw [andThen_run _ _ h1, andThen_run _ _ h2]
  rfl

/-! ### New tries -/

section
variable {K : Kind} {kec : Bytes → H256}

/-- The cells that are in use in `w` have the same contents in `w'`. -/
def Keep (K : Kind) (kec : Bytes → H256) (w w' : (Kind.laws kec K).W) : Prop :=
  ∀ a o, (Kind.laws kec K).slot w a o → K.trieKind.cacheGet a ((Kind.laws kec K).st w') =
    K.trieKind.cacheGet a ((Kind.laws kec K).st w)

theorem keep_alloc {w w' : (Kind.laws kec K).W}
    (h : (Kind.laws kec K).st w' = (K.trieKind.alloc ((Kind.laws kec K).st w)).2) : Keep K kec w w' := by
  intro a o hs
  rw [h]
  cases K with
  | standard => rfl
  | hashed =>
    have h1 : a.id < w.heap.next := hs.1
    exact upd_other _ _ (Nat.ne_of_lt h1)

theorem keep_set {w w1 w2 : (Kind.laws kec K).W} (hk : Keep K kec w w1) {c : K.Ann} {v : Option H256}
    (hc : (Kind.laws kec K).real → ∀ b o, (Kind.laws kec K).slot w b o → c ≠ b)
    (h : (Kind.laws kec K).st w2 = K.trieKind.cacheSet c v ((Kind.laws kec K).st w1)) :
    Keep K kec w w2 := by
  intro a o hs
  rw [← hk a o hs, h]
  by_cases hr : (Kind.laws kec K).real
  · exact (Kind.laws kec K).get_set_ne _ _ fun e => hc hr a o hs e.symm
  · rw [(Kind.laws kec K).not_real hr, (Kind.laws kec K).not_real hr]

theorem Keep.trans {w1 w2 w3 : (Kind.laws kec K).W} (h12 : (Kind.laws kec K).ole w1 w2)
    (h1 : Keep K kec w1 w2) (h2 : Keep K kec w2 w3) : Keep K kec w1 w3 := fun a o hs =>
  (h2 a o ((Kind.laws kec K).slot_mono h12 hs)).trans (h1 a o hs)

theorem Keep.refl (w : (Kind.laws kec K).W) : Keep K kec w w := fun _ _ _ => rfl

/-- The data of the node of a represented trie stays the same as long as cells are kept. -/
theorem RepN.nodeData_keep {w w' : (Kind.laws kec K).W} (hk : Keep K kec w w') {t : Trie K.Ann} {l : LNode}
    (h : RepN (L := Kind.laws kec K) kec w t l) :
    t.nodeData cached (fun a => K.trieKind.cacheGet a ((Kind.laws kec K).st w')) =
      t.nodeData cached (fun a => K.trieKind.cacheGet a ((Kind.laws kec K).st w)) := by
  induction h with
  | empty a => rfl
  | hash a h => rfl
  | leaf a k v hk => rfl
  | ext a k c lc hk' h ho ih => simp only [Trie.nodeData, ih, hk _ _ ho]
  | branch a cs lcs v h ho ih =>
    simp only [Trie.nodeData]
    congr 3
    funext i
    rw [ih i, hk _ _ (ho i)]

/-- The contents of a cell. -/
abbrev cellOf (kec : Bytes → H256) (K : Kind) (w : (Kind.laws kec K).W) (a : K.Ann) : Option H256 :=
  K.trieKind.cacheGet a ((Kind.laws kec K).st w)

/-- A trie `t`, with caches as given by `get`, that is `l` up to the representation of keys; the caches of
inner nodes are empty or right. -/
inductive SoundN {β : Type} (kec : Bytes → H256) (get : β → Option H256) : Trie β → LNode → Prop
  | empty (a : β) : SoundN kec get (.empty a) .empty
  | hash (a : β) (h : H256) : SoundN kec get (.hash a h) (.hash h)
  | branch (a : β) (cs : Fin 16 → Trie β) (lcs : Fin 16 → LNode) (v : Bytes)
      (h : ∀ i, SoundN kec get (cs i) (lcs i))
      (ho : ∀ i x, get (cs i).ann = some x → (lcs i).enc kec = .hashed x) :
      SoundN kec get (.branch a cs v) (.branch lcs v)
  | ext (a : β) (k : Key) (c : Trie β) (lc : LNode) (hk : k.length ≤ 128)
      (h : SoundN kec get c lc) (ho : ∀ x, get c.ann = some x → lc.enc kec = .hashed x) :
      SoundN kec get (.ext a (ofList k) c) (.ext k lc)
  | leaf (a : β) (k : Key) (v : Bytes) (hk : k.length ≤ 128) :
      SoundN kec get (.leaf a (ofList k) v) (.leaf k v)

theorem RepN.sound {w : (Kind.laws kec K).W} {t : Trie K.Ann} {l : LNode}
    (h : RepN (L := Kind.laws kec K) kec w t l) : SoundN kec (cellOf kec K w) t l := by
  induction h with
  | empty a => exact .empty a
  | hash a h => exact .hash a h
  | leaf a k v hk => exact .leaf a k v hk
  | ext a k c lc hk h ho ih => exact .ext a k c lc hk ih fun x e => (Kind.laws kec K).get_ok ho e
  | branch a cs lcs v h ho ih =>
    exact .branch a cs lcs v ih fun i x e => (Kind.laws kec K).get_ok (ho i) e

/-- A node that represents `l` and serialises to `D`. -/
def Restores (w : (Kind.laws kec K).W) (node : K.Ann → Trie K.Ann) (l : LNode) (D : SData) : Prop :=
  ∀ a, RepN (L := Kind.laws kec K) kec w (node a) l ∧ (node a).ann = a ∧
    (node a).nodeData K.cells (cellOf kec K w) = D

theorem Restores.mono {w w' : (Kind.laws kec K).W} {node : K.Ann → Trie K.Ann} {l : LNode} {D : SData}
    (h : Restores w node l D) (h1 : (Kind.laws kec K).ole w w') (h2 : Keep K kec w w') :
    Restores w' node l D := fun a => by
  obtain ⟨g1, g2, g3⟩ := h a
  refine ⟨g1.omono h1, g2, ?_⟩
  rw [← g3]
  exact g1.nodeData_keep h2

/-- An inner node that represents `l` and serialises to `D`. -/
def Restored (w : (Kind.laws kec K).W) (t : Trie K.Ann) (l : LNode) (D : SData) : Prop :=
  Rep (L := Kind.laws kec K) kec w t l ∧ t.data K.cells (cellOf kec K w) = D

theorem Restored.mono {w w' : (Kind.laws kec K).W} {t : Trie K.Ann} {l : LNode} {D : SData}
    (h : Restored w t l D) (h1 : (Kind.laws kec K).ole w w') (h2 : Keep K kec w w') :
    Restored w' t l D := by
  refine ⟨h.1.mono h1, ?_⟩
  rw [← h.2]
  unfold Trie.data
  rw [h.1.1.nodeData_keep h2]
  congr 1
  exact h2 _ _ h.1.2

theorem finish_inner {w : (Kind.laws kec K).W} {node : K.Ann → Trie K.Ann} {l : LNode} {D : SData}
    {o : Option H256} (hr : Restores w node l D) (ho : ∀ h, o = some h → l.enc kec = .hashed h) :
    ∃ t w', (Pending.finish (node, if K.cells then o else none)).run ((Kind.laws kec K).st w) =
      .ok (.ok t, (Kind.laws kec K).st w') ∧ (Kind.laws kec K).le w w' ∧ Keep K kec w w' ∧
      Restored w' t l (wrapData K.cells o D) := by
  obtain ⟨w1, g1, g2, g3, g4⟩ := (Kind.laws kec K).alloc_ok w (some l)
  have k1 : Keep K kec w w1 := keep_alloc g2
  have r1 := hr.mono ((Kind.laws kec K).ole_of_le g1) k1
  obtain ⟨r2, r3, r4⟩ := r1 (K.trieKind.alloc ((Kind.laws kec K).st w)).1
  have done : ∀ w', (Kind.laws kec K).le w1 w' → Keep K kec w w' →
      (node (K.trieKind.alloc ((Kind.laws kec K).st w)).1).nodeData K.cells (cellOf kec K w') = D →
      (K.cells = true → cellOf kec K w' (K.trieKind.alloc ((Kind.laws kec K).st w)).1 = o) →
      Restored w' (node (K.trieKind.alloc ((Kind.laws kec K).st w)).1) l (wrapData K.cells o D) := by
    intro w' h1 _ h3 h4
    refine ⟨⟨r2.omono ((Kind.laws kec K).ole_of_le h1), ?_⟩, ?_⟩
    · rw [r3]; exact (Kind.laws kec K).slot_mono ((Kind.laws kec K).ole_of_le h1) g3
    · unfold Trie.data
      rw [h3, r3]
      cases hc : K.cells with
      | false => rfl
      | true => rw [h4 hc]
  cases hv : (if K.cells then o else none) with
  | none =>
    refine ⟨_, w1, ?_, g1, k1, done w1 ((Kind.laws kec K).le_refl _) k1 r4 fun hc => ?_⟩
    · simp only [Pending.finish, Prog.run]
      rw [g2]
    · rw [hc, if_pos rfl] at hv
      rw [hv]; exact g4
  | some h =>
    have hc : K.cells = true := by
      cases hc : K.cells with
      | true => rfl
      | false => rw [hc] at hv; cases hv
    rw [hc, if_pos rfl] at hv
    obtain ⟨w2, j1, j2⟩ := (Kind.laws kec K).set_ok g3 (ho h hv)
    have k2 : Keep K kec w w2 := keep_set k1 (fun hR b o hb => (Kind.laws kec K).fresh hR hb) j2
    refine ⟨_, w2, ?_, (Kind.laws kec K).le_trans g1 j1, k2, done w2 j1 k2 ?_ fun _ => ?_⟩
    · simp only [Pending.finish, Prog.run]
      rw [j2, g2]
    · obtain ⟨_, _, q3⟩ := hr.mono ((Kind.laws kec K).ole_of_le ((Kind.laws kec K).le_trans g1 j1)) k2
        (K.trieKind.alloc ((Kind.laws kec K).st w)).1
      exact q3
    · rw [hv, cellOf, j2]
      exact (Kind.laws kec K).get_set ((K.cells_real kec).1 hc) _ _ _

theorem nodeData_variant (get : α → Option H256) (t : Trie α) :
    ∃ name d, t.nodeData cached get = .variant name d := by
  cases t <;> exact ⟨_, _, rfl⟩

theorem deWrap_run {α S : Type} [TrieKind α S] {cached : Bool} {name : String} {d : SData} {o : Option H256} {s s' : S}
    {node : α → Trie α} (h : (deNode cached (.variant name d)).run s = .ok (.ok node, s')) :
    (deWrap cached (wrapData cached o (.variant name d))).run s =
      .ok (.ok (node, if cached then o else none), s') := by
  cases cached with
  | false =>
    show ((deVariant false name d).andThen _).run s = _
    rw [deNode] at h
    rw [andThen_run _ _ h]
    rfl
  | true =>
    show (deWrap true (.struct _ _ _)).run s = _
    rw [deWrap, if_pos rfl]
    have hc : deCell (ofHash o) = .ok o := by cases o <;> rfl
    have := visit2_run (a := "node") (b := "hash") (by decide) (.variant name d) (ofHash o)
      (fun d => deNode true d) (fun d => .ret (deCell d)) h (s'' := s') (v := o) (by rw [hc]; rfl) rfl
    rw [andThen_run _ _ this]
    rfl

theorem child_run {β : Type} {get : β → Option H256} {w' : (Kind.laws kec K).W} {t0 : Trie β} {l : LNode}
    {node : K.Ann → Trie K.Ann} {s : K.State}
    (h : (deNode K.cells (t0.nodeData K.cells get)).run s =
      .ok (.ok node, (Kind.laws kec K).st w'))
    (hr : Restores w' node l (t0.nodeData K.cells get))
    (ho : ∀ x, get t0.ann = some x → l.enc kec = .hashed x) :
    ∃ t w'', ((deWrap K.cells (t0.data K.cells get)).andThen fun r => r.finish).run s =
      .ok (.ok t, (Kind.laws kec K).st w'') ∧ (Kind.laws kec K).le w' w'' ∧ Keep K kec w' w'' ∧
      Restored w'' t l (t0.data K.cells get) := by
  obtain ⟨t, w'', g1, g2, g3, g4⟩ := finish_inner (o := get t0.ann) hr
    ho
  refine ⟨t, w'', ?_, g2, g3, g4⟩
  obtain ⟨name, d, e⟩ := nodeData_variant (cached := K.cells) get t0
  unfold Trie.data
  rw [e] at h ⊢
  rw [andThen_run _ _ (deWrap_run h)]
  exact g1

theorem collectE_run {n : Nat} (p : Fin n → Prog K.Ann (Except DeError (Trie K.Ann))) (l : Fin n → LNode)
    (D : Fin n → SData) (h : ∀ i w, ∃ t w', (p i).run ((Kind.laws kec K).st w) =
      .ok (.ok t, (Kind.laws kec K).st w') ∧ (Kind.laws kec K).le w w' ∧ Keep K kec w w' ∧
      Restored w' t (l i) (D i)) (w : (Kind.laws kec K).W) :
    ∃ f w', (Prog.collectE n p).run ((Kind.laws kec K).st w) = .ok (.ok f, (Kind.laws kec K).st w') ∧
      (Kind.laws kec K).le w w' ∧ Keep K kec w w' ∧ ∀ i, Restored w' (f i) (l i) (D i) := by
  induction n generalizing w with
  | zero =>
    exact ⟨fun i => i.elim0, w, rfl, (Kind.laws kec K).le_refl _, .refl _, fun i => i.elim0⟩
  | succ n ih =>
    obtain ⟨t, w1, g1, g2, g3, g4⟩ := h 0 w
    obtain ⟨f, w2, j1, j2, j3, j4⟩ := ih (fun i => p i.succ) (fun i => l i.succ) (fun i => D i.succ)
      (fun i => h i.succ) w1
    have o1 := (Kind.laws kec K).ole_of_le g2
    have o2 := (Kind.laws kec K).ole_of_le j2
    refine ⟨fun i => Fin.cases t f i, w2, ?_, (Kind.laws kec K).le_trans g2 j2, g3.trans o1 j3, ?_⟩
    · rw [Prog.collectE, andThen_run _ _ g1, andThen_run _ _ j1]
      rfl
    · intro i
      refine Fin.cases (g4.mono o2 j3) (fun i => j4 i) i

/-- What was serialised is read back. -/
theorem deNode_run {β : Type} {get : β → Option H256} {t0 : Trie β} {l : LNode}
    (h : SoundN kec get t0 l) (w : (Kind.laws kec K).W) :
    ∃ node w', (deNode K.cells (t0.nodeData K.cells get)).run ((Kind.laws kec K).st w) =
      .ok (.ok node, (Kind.laws kec K).st w') ∧ (Kind.laws kec K).le w w' ∧ Keep K kec w w' ∧
      Restores w' node l (t0.nodeData K.cells get) := by
  induction h generalizing w with
  | empty a =>
    refine ⟨fun a => .empty a, w, ?_, (Kind.laws kec K).le_refl _, .refl _, fun a => ⟨.empty a, rfl, rfl⟩⟩
    simp [Trie.nodeData, deNode, deVariant, Prog.run]
  | hash a x =>
    refine ⟨fun a => .hash a x, w, ?_, (Kind.laws kec K).le_refl _, .refl _,
      fun a => ⟨.hash a x, rfl, rfl⟩⟩
    simp [Trie.nodeData, deNode, deVariant, Prog.run]
  | leaf a k v hk =>
    refine ⟨fun a => .leaf a (ofList k) v, w, ?_, (Kind.laws kec K).le_refl _, .refl _,
      fun a => ⟨.leaf a k v hk, rfl, rfl⟩⟩
    have hn : (ofList k).count < 2 ^ 64 := by
      show k.length < _
      omega
    have := visit2_run (α := K.Ann) (s := (Kind.laws kec K).st w) (a := "nibbles") (b := "value") (by decide) (ofNibbles (ofList k)) (ofBytes v)
      (fun d => deNibbles d) (fun d => .ret (deBytes d)) (by rw [deNibbles_ofNibbles hn]; rfl)
      (by rw [deBytes_ofBytes]; rfl) rfl
    show (deNode K.cells (.variant _ (.struct _ _ _))).run _ = _
    rw [deNode, deVariant, if_neg (by decide), if_neg (by decide), if_pos rfl, andThen_run _ _ this]
    rfl
  | ext a k c lc hk h ho ih =>
    obtain ⟨node, w1, g1, g2, g3, g4⟩ := ih w
    obtain ⟨t, w2, j1, j2, j3, j4⟩ := child_run g1 g4 ho
    have o1 := (Kind.laws kec K).ole_of_le g2
    refine ⟨fun a => .ext a (ofList k) t, w2, ?_, (Kind.laws kec K).le_trans g2 j2, g3.trans o1 j3,
      fun a => ⟨.ext a k t lc hk j4.1.1 j4.1.2, rfl, ?_⟩⟩
    · have hn : (ofList k).count < 2 ^ 64 := by
        show k.length < _
        omega
      have := visit2_run (s := (Kind.laws kec K).st w) (a := "nibbles") (b := "child") (by decide) (ofNibbles (ofList k))
        (c.data K.cells get)
        (fun d => deNibbles d) (fun d => (deWrap K.cells d).andThen fun r => r.finish)
        (by rw [deNibbles_ofNibbles hn]; rfl) j1 rfl
      show (deNode K.cells (.variant _ (.struct _ _ _))).run _ = _
      rw [deNode, deVariant, if_neg (by decide), if_pos rfl]
      refine (andThen_run _ _ this).trans rfl
    · have := j4.2
      unfold Trie.data at this
      simp only [Trie.nodeData, this]
  | branch a cs lcs v h ho ih =>
    have hch : ∀ i w, ∃ t w', ((deWrap K.cells ((cs i).data K.cells get)).andThen
        fun r => r.finish).run ((Kind.laws kec K).st w) = .ok (.ok t, (Kind.laws kec K).st w') ∧
        (Kind.laws kec K).le w w' ∧ Keep K kec w w' ∧
        Restored w' t (lcs i) ((cs i).data K.cells get) := by
      intro i w
      obtain ⟨node, w1, g1, g2, g3, g4⟩ := ih i w
      obtain ⟨t, w2, j1, j2, j3, j4⟩ := child_run g1 g4 (ho i)
      exact ⟨t, w2, j1, (Kind.laws kec K).le_trans g2 j2, g3.trans ((Kind.laws kec K).ole_of_le g2) j3, j4⟩
    obtain ⟨f, w1, g1, g2, g3, g4⟩ := collectE_run _ lcs _ hch w
    refine ⟨fun a => .branch a f v, w1, ?_, g2, g3,
      fun a => ⟨.branch a f lcs v (fun i => (g4 i).1.1) (fun i => (g4 i).1.2), rfl, ?_⟩⟩
    · have := visit2_run (s := (Kind.laws kec K).st w) (a := "children") (b := "value") (by decide)
        (.seq 16 fun i => (cs i).data K.cells get) (ofBytes v)
        (fun d => deChildren K.cells d) (fun d => .ret (deBytes d))
        (by rw [deChildren, dif_pos rfl]; exact g1)
        (by rw [deBytes_ofBytes]; rfl) rfl
      show (deNode K.cells (.variant _ (.struct _ _ _))).run _ = _
      rw [deNode, deVariant, if_pos rfl]
      refine (andThen_run _ _ this).trans rfl
    · simp only [Trie.nodeData]
      congr 3
      funext i
      exact (g4 i).2

/-- A trie that was serialised in one state is read back in another one, whatever is said about the
cache of the root. -/
theorem de_run_with {β : Type} {get : β → Option H256} {t0 : Trie β} {l : LNode}
    (h : SoundN kec get t0 l) {o : Option H256} (hnone : K.cells = false → o = none) (w : (Kind.laws kec K).W) :
    ∃ t w', (Trie.de K.cells (wrapData K.cells o (t0.nodeData K.cells get))).run ((Kind.laws kec K).st w) =
      .ok (.ok t, (Kind.laws kec K).st w') ∧ (Kind.laws kec K).ole w w' ∧ Keep K kec w w' ∧
      RepN (L := Kind.laws kec K) kec w' t l ∧ (Kind.laws kec K).slot w' t.ann none ∧
      ((Kind.laws kec K).real → ∀ b o, (Kind.laws kec K).slot w b o → t.ann ≠ b) ∧
      cellOf kec K w' t.ann = o ∧
      t.data K.cells (cellOf kec K w') = wrapData K.cells o (t0.nodeData K.cells get) := by
  obtain ⟨node, w1, g1, g2, g3, g4⟩ := deNode_run h w
  obtain ⟨w2, j1, j2, j3, j4⟩ := (Kind.laws kec K).alloc_ok w1 none
  have o1 := (Kind.laws kec K).ole_of_le g2
  have o2 := (Kind.laws kec K).ole_trans o1 ((Kind.laws kec K).ole_of_le j1)
  have k2 : Keep K kec w1 w2 := keep_alloc j2
  have hstart : (Trie.de K.cells (wrapData K.cells o (t0.nodeData K.cells get))).run ((Kind.laws kec K).st w) =
      (Pending.finish (node, if K.cells then o else none)).run
        ((Kind.laws kec K).st w1) := by
    obtain ⟨name, d, e⟩ := nodeData_variant (cached := K.cells) get t0
    unfold Trie.de
    rw [e] at g1 ⊢
    rw [andThen_run _ _ (deWrap_run g1)]
  have hfresh : (Kind.laws kec K).real → ∀ b o, (Kind.laws kec K).slot w b o →
      (node (K.trieKind.alloc ((Kind.laws kec K).st w1)).1).ann ≠ b := by
    intro hR b o hb
    rw [(g4 _).2.1]
    exact (Kind.laws kec K).fresh hR ((Kind.laws kec K).slot_mono o1 hb)
  have done : ∀ w', (Kind.laws kec K).ole w2 w' → Keep K kec w1 w' →
      cellOf kec K w' (K.trieKind.alloc ((Kind.laws kec K).st w1)).1 = o →
      (Kind.laws kec K).ole w w' ∧ Keep K kec w w' ∧
      RepN (L := Kind.laws kec K) kec w' (node (K.trieKind.alloc ((Kind.laws kec K).st w1)).1) l ∧
      (Kind.laws kec K).slot w' (node (K.trieKind.alloc ((Kind.laws kec K).st w1)).1).ann none ∧
      ((Kind.laws kec K).real → ∀ b o, (Kind.laws kec K).slot w b o →
        (node (K.trieKind.alloc ((Kind.laws kec K).st w1)).1).ann ≠ b) ∧
      cellOf kec K w' (node (K.trieKind.alloc ((Kind.laws kec K).st w1)).1).ann = o ∧
      (node (K.trieKind.alloc ((Kind.laws kec K).st w1)).1).data K.cells (cellOf kec K w') =
        wrapData K.cells o (t0.nodeData K.cells get) := by
    intro w' h1 h2 h3
    have o3 := (Kind.laws kec K).ole_trans ((Kind.laws kec K).ole_of_le j1) h1
    obtain ⟨q1, q2, q3⟩ := g4.mono o3 h2 (K.trieKind.alloc ((Kind.laws kec K).st w1)).1
    refine ⟨(Kind.laws kec K).ole_trans o2 h1, g3.trans o1 h2, q1, ?_, hfresh, ?_, ?_⟩
    · rw [q2]; exact (Kind.laws kec K).slot_mono h1 j3
    · rw [q2]; exact h3
    · unfold Trie.data
      rw [q2, h3, q3]
  rw [hstart]
  have hv : (if K.cells then o else none) = o := by
    cases hc : K.cells with
    | true => rfl
    | false => rw [hnone hc]; rfl
  rw [hv]
  cases o with
  | none =>
    refine ⟨_, w2, ?_, done w2 (ole_refl _) k2 j4⟩
    simp only [Pending.finish, Prog.run]
    rw [j2]
  | some x =>
    have hR : (Kind.laws kec K).real := by
      refine (K.cells_real kec).1 ?_
      by_contra hc
      have := hnone (by simpa using hc)
      cases this
    obtain ⟨w3, l1, l2⟩ := (Kind.laws kec K).set_root (some x) j3
    refine ⟨_, w3, ?_, done w3 l1 (keep_set k2 (fun hR b o hb => (Kind.laws kec K).fresh hR hb) l2) ?_⟩
    · simp only [Pending.finish, Prog.run]
      rw [l2, j2]
    · rw [cellOf, l2]
      exact (Kind.laws kec K).get_set hR _ _ _

/-- A trie that was serialised in one state is read back in another one. -/
theorem de_run {β : Type} {get : β → Option H256} {t0 : Trie β} {l : LNode}
    (h : SoundN kec get t0 l) (hnone : K.cells = false → get t0.ann = none) (w : (Kind.laws kec K).W) :
    ∃ t w', (Trie.de K.cells (t0.data K.cells get)).run ((Kind.laws kec K).st w) =
      .ok (.ok t, (Kind.laws kec K).st w') ∧ (Kind.laws kec K).ole w w' ∧ Keep K kec w w' ∧
      RepN (L := Kind.laws kec K) kec w' t l ∧ (Kind.laws kec K).slot w' t.ann none ∧
      ((Kind.laws kec K).real → ∀ b o, (Kind.laws kec K).slot w b o → t.ann ≠ b) ∧
      cellOf kec K w' t.ann = get t0.ann ∧
      t.data K.cells (cellOf kec K w') = t0.data K.cells get := de_run_with h hnone w

end

end EthTrie
