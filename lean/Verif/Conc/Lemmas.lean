import Verif.Conc.Model
import Verif.Sys.Views

/-!
# Threads that hash compute what the list-keyed tries say, in any order
-/

namespace EthTrie

open Nibbles Spec

/-- The number of nodes of a trie. -/
def Trie.size {α : Type} : Trie α → Nat
  | .empty _ => 1
  | .hash _ _ => 1
  | .branch _ cs _ => 1 + ((List.finRange 16).map fun i => (cs i).size).sum
  | .ext _ _ c => 1 + c.size
  | .leaf _ _ _ => 1

theorem Trie.size_pos {α : Type} (t : Trie α) : 0 < t.size := by
  cases t <;> simp [Trie.size] <;> omega

section
variable {kec : Bytes → H256} {P : Profile} {α S : Type} [K : TrieKind α S] [L : KindLaws kec α S]
  {β γ : Type}

/-- The program returns `v`, whatever other threads do in the meantime. -/
def Returns (kec : Bytes → H256) [L : KindLaws kec α S] : Prog α β → L.W → β → Prop
  | .ret b, _, v => b = v
  | .panic _, _, _ => False
  | .alloc k, w, v => ∀ w', L.le w w' → ∃ w'', L.le w' w'' ∧ L.st w'' = (K.alloc (L.st w')).2 ∧
    Returns kec (k (K.alloc (L.st w')).1) w'' v
  | .read a k, w, v => ∀ w', L.le w w' → Returns kec (k (K.cacheGet a (L.st w'))) w' v
  | .write a o k, w, v => ∀ w', L.le w w' →
    ∃ w'', L.le w' w'' ∧ L.st w'' = K.cacheSet a o (L.st w') ∧ Returns kec k w'' v

theorem Returns.mono {p : Prog α β} {w w' : L.W} {v : β} (h : Returns kec p w v)
    (hle : L.le w w') : Returns kec p w' v := by
  cases p with
  | ret b => exact h
  | panic e => exact h
  | alloc k => exact fun w'' h' => h w'' (L.le_trans hle h')
  | read a k => exact fun w'' h' => h w'' (L.le_trans hle h')
  | write a o k => exact fun w'' h' => h w'' (L.le_trans hle h')

theorem Returns.bind {p : Prog α β} {f : β → Prog α γ} {w : L.W} {b : β} {v : γ}
    (h : Returns kec p w b) (hf : ∀ w', L.le w w' → Returns kec (f b) w' v) :
    Returns kec (p.bind f) w v := by
  induction p generalizing w with
  | ret b' =>
    cases h
    exact hf w (L.le_refl w)
  | panic e => exact h.elim
  | alloc k ih =>
    intro w' h'
    obtain ⟨w'', h1, h2, h3⟩ := h w' h'
    exact ⟨w'', h1, h2, ih _ h3 fun x hx => hf x (L.le_trans h' (L.le_trans h1 hx))⟩
  | read a k ih =>
    exact fun w' h' => ih _ (h w' h') fun w'' h'' => hf w'' (L.le_trans h' h'')
  | write a o k ih =>
    intro w' h'
    obtain ⟨w'', h1, h2, h3⟩ := h w' h'
    exact ⟨w'', h1, h2, ih h3 fun x hx => hf x (L.le_trans h' (L.le_trans h1 hx))⟩

theorem returns_cached {w : L.W} {a : α} {l : LNode} {p : Prog α EncodedNode}
    (ho : L.slot w a (some l)) (hp : Returns kec p w (l.enc kec)) :
    Returns kec (cached a p) w (l.enc kec) := by
  intro w' h'
  have ho' := L.slot_mono (L.ole_of_le h') ho
  cases hg : K.cacheGet a (L.st w') with
  | some h =>
    show EncodedNode.hashed h = _
    rw [L.get_ok ho' hg]
  | none =>
    refine (hp.mono h').bind fun w1 h1 => ?_
    cases he : l.enc kec with
    | raw b => rfl
    | hashed h =>
      intro w2 h2
      obtain ⟨w3, h3, h4⟩ := L.set_ok (L.slot_mono (L.ole_of_le (L.le_trans h1 h2)) ho') he
      exact ⟨w3, h3, h4, rfl⟩

theorem returns_seq {ι : Type} {f : ι → Prog α EncodedNode} {g : ι → EncodedNode}
    (xs : List ι) {w : L.W} (h : ∀ x ∈ xs, Returns kec (f x) w (g x)) :
    Returns kec (Prog.seq (xs.map f)) w (xs.map g) := by
  induction xs generalizing w with
  | nil => rfl
  | cons x xs ih =>
    simp only [List.map_cons, Prog.seq]
    refine (h x List.mem_cons_self).bind fun w1 h1 => ?_
    refine (ih fun y hy => (h y (List.mem_cons_of_mem _ hy)).mono h1).bind fun w2 _ => ?_
    rfl

theorem returns_encode {t : Trie α} {l : LNode} {w : L.W} (h : RepN kec w t l) :
    Returns kec (encodeNode P kec t) w (l.enc kec) := by
  induction h with
  | empty a => rfl
  | hash a h => rfl
  | branch a cs lcs v h ho ih =>
    simp only [encodeNode]
    refine (returns_seq (List.finRange 16) (g := fun i => (lcs i).enc kec)
      fun i _ => returns_cached (ho i) (ih i)).bind fun w' _ => ?_
    simp only [Returns, LNode.enc, List.map_map]
    cases v <;> rfl
  | ext a k c lc hk h ho ih =>
    simp only [encodeNode, toHexPrefix_ok P hk, Prog.lift, Prog.bind]
    refine (returns_cached ho ih).bind fun w' _ => rfl
  | leaf a k v hk =>
    simp only [encodeNode, toHexPrefix_ok P hk, Prog.lift, Prog.bind]
    rfl

/-- What `hash` returns in the current state. -/
def hashNow (kec : Bytes → H256) [L : KindLaws kec α S] (w : L.W) (t : Trie α) (l : LNode) : H256 :=
  (K.cacheGet t.ann (L.st w)).getD (l.rootHash kec)

/-- `hash` of `t` returns `v`, now or later. -/
def CellVal (kec : Bytes → H256) [L : KindLaws kec α S] (w : L.W) (t : Trie α) (l : LNode)
    (v : H256) : Prop := ∀ w', L.le w w' → hashNow kec w' t l = v

theorem returns_hash {t : Trie α} {l : LNode} {w : L.W} {v : H256} (h : RepN kec w t l)
    (hc : CellVal kec w t l v) : Returns kec (hashProg P kec t) w v := by
  intro w' h'
  have := hc w' h'
  unfold hashNow at this
  cases hg : K.cacheGet t.ann (L.st w') with
  | some x =>
    rw [hg] at this
    exact this
  | none =>
    rw [hg] at this
    exact ((returns_encode h).mono h').bind fun w'' _ => this

/-- What `hash` of a sub-trie returns does not change, and it is right except perhaps at the top. -/
theorem NodeAt_rep {t u : Trie α} {q : Key} (hu : t.NodeAt q u) {l : LNode} {w : L.W}
    (h : RepN kec w t l) (hc : CellVal kec w t l (hashNow kec w t l)) :
    ∃ l', RepN kec w u l' ∧ CellVal kec w u l' (hashNow kec w u l') ∧
      (u = t ∨ hashNow kec w u l' = l'.rootHash kec) := by
  have key : ∀ {c : Trie α} {lc : LNode}, L.slot w c.ann (some lc) →
      ∀ w', L.le w w' → hashNow kec w' c lc = lc.rootHash kec := by
    intro c lc ho w' h'
    unfold hashNow
    cases hg : K.cacheGet c.ann (L.st w') with
    | none => rfl
    | some x => rw [LNode.rootHash, L.get_ok (L.slot_mono (L.ole_of_le h') ho) hg]; rfl
  have step : ∀ {c u : Trie α} {lc : LNode}, L.slot w c.ann (some lc) → RepN kec w c lc →
      (RepN kec w c lc → CellVal kec w c lc (hashNow kec w c lc) → ∃ l', RepN kec w u l' ∧
        CellVal kec w u l' (hashNow kec w u l') ∧ (u = c ∨ hashNow kec w u l' = l'.rootHash kec)) →
      ∃ l', RepN kec w u l' ∧ CellVal kec w u l' (hashNow kec w u l') ∧
        hashNow kec w u l' = l'.rootHash kec := by
    intro c u lc ho hr ih
    have hc : CellVal kec w c lc (hashNow kec w c lc) := fun w' h' => by
      rw [key ho w' h', key ho w (L.le_refl w)]
    obtain ⟨l', h1, h2, h3⟩ := ih hr hc
    rcases h3 with rfl | h3
    · exact ⟨lc, hr, hc, key ho w (L.le_refl w)⟩
    · exact ⟨l', h1, h2, h3⟩
  induction hu generalizing l with
  | here t => exact ⟨l, h, hc, .inl rfl⟩
  | branch a cs v d q u hu ih =>
    cases h with
    | branch _ _ lcs _ h ho =>
      obtain ⟨l', h1, h2, h3⟩ := step (ho d) (h d) ih
      exact ⟨l', h1, h2, .inr h3⟩
  | ext a n c q u hu ih =>
    cases h with
    | ext _ _ _ lc _ h ho =>
      obtain ⟨l', h1, h2, h3⟩ := step ho h ih
      exact ⟨l', h1, h2, .inr h3⟩

theorem forall₂_get {A B : Type} {R : A → B → Prop} {as : List A} {bs : List B}
    (h : List.Forall₂ R as bs) {j : Nat} {a : A} (hj : as[j]? = some a) :
    ∃ b, bs[j]? = some b ∧ R a b := by
  induction h generalizing j with
  | nil => simp at hj
  | cons h1 h2 ih =>
    cases j with
    | zero =>
      simp only [List.getElem?_cons_zero, Option.some.injEq] at hj
      subst hj
      exact ⟨_, rfl, h1⟩
    | succ j => exact ih (by simpa using hj)

/-- Running threads. -/
theorem steps_returns {n : Nat} {c c' : Threads α S β} (hs : Threads.Steps n c c') :
    ∀ {w : L.W} {vs : List β}, c.state = L.st w →
    List.Forall₂ (fun p v => Returns kec p w v) c.threads vs →
    ∃ w', L.le w w' ∧ c'.state = L.st w' ∧
      List.Forall₂ (fun p v => Returns kec p w' v) c'.threads vs := by
  have set : ∀ {ps : List (Prog α β)} {vs : List β} {w w' : L.W} {j : Nat} {q : Prog α β} {v : β},
      L.le w w' → vs[j]? = some v → List.Forall₂ (fun p v => Returns kec p w v) ps vs →
      Returns kec q w' v → List.Forall₂ (fun p v => Returns kec p w' v) (ps.set j q) vs := by
    intro ps vs w w' j q v hle hj h hq
    induction h generalizing j with
    | nil => simp at hj
    | cons h1 h2 ih =>
      cases j with
      | zero =>
        simp only [List.getElem?_cons_zero, Option.some.injEq] at hj
        subst hj
        exact .cons hq (h2.imp fun _ _ h => h.mono hle)
      | succ j => exact .cons (h1.mono hle) (ih (by simpa using hj))
  induction hs with
  | nil c => intro w vs h1 h2; exact ⟨w, L.le_refl w, h1, h2⟩
  | cons h _ ih =>
    intro w vs h1 h2
    cases h with
    | alloc s ps j k hj =>
      simp only at h1 h2
      subst h1
      obtain ⟨v, hv1, hv2⟩ := forall₂_get h2 hj
      obtain ⟨w', g1, g2, g3⟩ := hv2 w (L.le_refl w)
      obtain ⟨w'', k1, k2⟩ := ih g2.symm (set g1 hv1 h2 g3)
      exact ⟨w'', L.le_trans g1 k1, k2⟩
    | read s ps j a k hj =>
      simp only at h1 h2
      subst h1
      obtain ⟨v, hv1, hv2⟩ := forall₂_get h2 hj
      exact ih rfl (set (L.le_refl w) hv1 h2 (hv2 w (L.le_refl w)))
    | write s ps j a o k hj =>
      simp only at h1 h2
      subst h1
      obtain ⟨v, hv1, hv2⟩ := forall₂_get h2 hj
      obtain ⟨w', g1, g2, g3⟩ := hv2 w (L.le_refl w)
      obtain ⟨w'', k1, k2⟩ := ih g2.symm (set g1 hv1 h2 g3)
      exact ⟨w'', L.le_trans g1 k1, k2⟩

theorem Threads.Steps.snoc {n : Nat} {c c' c'' : Threads α S β} (h : Threads.Steps n c c')
    (hs : Threads.Step c' c'') : Threads.Steps (n + 1) c c'' := by
  induction h with
  | nil c => exact .cons hs (.nil _)
  | cons h _ ih => exact .cons h (ih hs)

/-! ### Number of steps -/

/-- The program makes at most `n` steps. -/
def Prog.Within : Prog α β → Nat → Prop
  | .ret _, _ => True
  | .panic _, _ => True
  | .alloc k, n => ∃ m, n = m + 1 ∧ ∀ a, Within (k a) m
  | .read _ k, n => ∃ m, n = m + 1 ∧ ∀ o, Within (k o) m
  | .write _ _ k, n => ∃ m, n = m + 1 ∧ Within k m

theorem Prog.Within.mono {p : Prog α β} {n m : Nat} (h : p.Within n) (hle : n ≤ m) :
    p.Within m := by
  induction p generalizing n m with
  | ret b => trivial
  | panic e => trivial
  | alloc k ih =>
    obtain ⟨x, rfl, h⟩ := h
    exact ⟨m - 1, by omega, fun a => ih a (h a) (by omega)⟩
  | read a k ih =>
    obtain ⟨x, rfl, h⟩ := h
    exact ⟨m - 1, by omega, fun o => ih o (h o) (by omega)⟩
  | write a o k ih =>
    obtain ⟨x, rfl, h⟩ := h
    exact ⟨m - 1, by omega, ih h (by omega)⟩

theorem Prog.Within.bind {p : Prog α β} {f : β → Prog α γ} {n m : Nat} (h : p.Within n)
    (hf : ∀ b, (f b).Within m) : (p.bind f).Within (n + m) := by
  induction p generalizing n with
  | ret b => exact (hf b).mono (by omega)
  | panic e => trivial
  | alloc k ih =>
    obtain ⟨x, rfl, h⟩ := h
    exact ⟨x + m, by omega, fun a => ih a (h a)⟩
  | read a k ih =>
    obtain ⟨x, rfl, h⟩ := h
    exact ⟨x + m, by omega, fun o => ih o (h o)⟩
  | write a o k ih =>
    obtain ⟨x, rfl, h⟩ := h
    exact ⟨x + m, by omega, ih h⟩

theorem Prog.Within.seq {p : Prog α β} {f : β → Prog α γ} {n r : Nat} (m : Nat) (h : p.Within n)
    (hf : ∀ b, (f b).Within m) (hr : n + m ≤ r) : (p.bind f).Within r := (h.bind hf).mono hr

theorem sum_double {ι : Type} (f : ι → Nat) (xs : List ι) :
    (xs.map fun i => 2 * f i).sum = 2 * (xs.map f).sum := by
  induction xs with
  | nil => rfl
  | cons x xs ih => simp only [List.map_cons, List.sum_cons, ih]; omega

theorem within_seq {ι : Type} {f : ι → Prog α EncodedNode} {g : ι → Nat} (xs : List ι)
    (h : ∀ x ∈ xs, (f x).Within (g x)) : (Prog.seq (xs.map f)).Within (xs.map g).sum := by
  induction xs with
  | nil => trivial
  | cons x xs ih =>
    simp only [List.map_cons, Prog.seq, List.sum_cons]
    refine (h x List.mem_cons_self).bind fun b => ?_
    exact (ih fun y hy => h y (List.mem_cons_of_mem _ hy)).seq 0 (fun _ => trivial) (by omega)

theorem within_cached {a : α} {p : Prog α EncodedNode} {n : Nat} (h : p.Within n) :
    (cached a p).Within (n + 2) := by
  refine ⟨n + 1, rfl, fun o => ?_⟩
  cases o with
  | some h => trivial
  | none =>
    refine h.bind fun e => ?_
    cases e with
    | raw b => trivial
    | hashed h => exact ⟨0, rfl, trivial⟩

theorem within_encode (t : Trie α) : (encodeNode P kec t).Within (2 * t.size - 2) := by
  induction t with
  | empty a => trivial
  | hash a h => trivial
  | branch a cs v ih =>
    simp only [encodeNode, Trie.size]
    refine (within_seq (List.finRange 16) (g := fun i => 2 * (cs i).size) fun i _ => ?_).seq 0
      (fun _ => trivial) ?_
    · refine (within_cached (ih i)).mono ?_
      have := Trie.size_pos (cs i)
      omega
    · rw [sum_double]; omega
  | ext a n c ih =>
    simp only [encodeNode, Trie.size]
    have hl : ∀ r : R Bytes, (Prog.lift r : Prog α Bytes).Within 0 := by
      intro r; cases r <;> trivial
    refine (hl _).seq (2 * c.size) (fun hp => ?_) (by omega)
    refine (within_cached ih).seq 0 (fun _ => trivial) ?_
    have := Trie.size_pos c
    omega
  | leaf a n v =>
    simp only [encodeNode]
    have hl : ∀ r : R Bytes, (Prog.lift r : Prog α Bytes).Within 0 := by
      intro r; cases r <;> trivial
    exact (hl _).seq 0 (fun _ => trivial) (by omega)

theorem within_hash (t : Trie α) : (hashProg P kec t).Within (2 * t.size) := by
  have := Trie.size_pos t
  refine ⟨2 * t.size - 1, by omega, fun o => ?_⟩
  cases o with
  | some h => trivial
  | none => exact (within_encode t).seq 0 (fun _ => trivial) (by omega)

theorem steps_within {n : Nat} {c c' : Threads α S β} (hs : Threads.Steps n c c') :
    ∀ {ms : List Nat}, List.Forall₂ Prog.Within c.threads ms → n ≤ ms.sum := by
  have set : ∀ {ps : List (Prog α β)} {ms : List Nat} {j m : Nat} {q : Prog α β},
      List.Forall₂ Prog.Within ps ms → ms[j]? = some (m + 1) → q.Within m →
      ∃ ms', List.Forall₂ Prog.Within (ps.set j q) ms' ∧ ms.sum = ms'.sum + 1 := by
    intro ps ms j m q h hj hq
    induction h generalizing j with
    | nil => simp at hj
    | cons h1 h2 ih =>
      cases j with
      | zero =>
        simp only [List.getElem?_cons_zero, Option.some.injEq] at hj
        subst hj
        exact ⟨_, .cons hq h2, by simp only [List.sum_cons]; omega⟩
      | succ j =>
        obtain ⟨ms', g1, g2⟩ := ih (j := j) (by simpa using hj)
        exact ⟨_, .cons h1 g1, by simp only [List.sum_cons]; omega⟩
  induction hs with
  | nil c => intro ms _; omega
  | cons h _ ih =>
    intro ms h2
    cases h with
    | alloc s ps j k hj =>
      simp only at h2
      obtain ⟨v, hv1, m, rfl, hv2⟩ := forall₂_get h2 hj
      obtain ⟨ms', g1, g2⟩ := set h2 hv1 (hv2 (K.alloc s).1)
      have := ih g1
      omega
    | read s ps j a k hj =>
      simp only at h2
      obtain ⟨v, hv1, m, rfl, hv2⟩ := forall₂_get h2 hj
      obtain ⟨ms', g1, g2⟩ := set h2 hv1 (hv2 (K.cacheGet a s))
      have := ih g1
      omega
    | write s ps j a o k hj =>
      simp only at h2
      obtain ⟨v, hv1, m, rfl, hv2⟩ := forall₂_get h2 hj
      obtain ⟨ms', g1, g2⟩ := set h2 hv1 hv2
      have := ih g1
      omega

end
end EthTrie
