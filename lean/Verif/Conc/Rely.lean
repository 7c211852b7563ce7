import Verif.Conc.Calls
import Verif.Sys.Refine

/-!
# Calls of several threads: rely and guarantee

A call borrows the roots of its handles, `own` with their contents.  What the call relies on: the other
threads only move to later worlds, leave right values in the cells of the borrowed roots, and do not
touch the cell of a root that is borrowed for mutation.  What it guarantees: its own steps change the
cells of roots only to `None` or, for its own roots, to the right hash.
-/

namespace EthTrie

open Nibbles Spec

/-- `Sys.exec` runs the program of the call without interruption. -/
theorem Sys.exec_eq_prog {α S : Type} [K : TrieKind α S] (P : Profile) (kec : Bytes → H256)
    (s : Sys α S) (c : Cmd) :
    s.exec P kec c = ((c.prog P kec s.hs).run s.state).map fun r =>
      (⟨r.2, r.1.apply s.hs⟩, r.1.obs) := by
  cases c with
  | new =>
    simp only [Sys.exec, Cmd.prog, Prog.bind_run]
    cases (newEmpty : Prog α (Trie α)).run s.state <;> rfl
  | fromIter xs =>
    simp only [Sys.exec, Cmd.prog, Prog.bind_run]
    cases (EthTrie.fromIter P (packEntries xs) : Prog α (Trie α)).run s.state <;> rfl
  | clone i =>
    simp only [Sys.exec, Cmd.prog, Sys.on, onHandle]
    cases s.hs[i]? with
    | none => simp [Prog.run, Except.map, Reply.apply]
    | some t => rfl
  | insert i k v =>
    simp only [Sys.exec, Cmd.prog, Sys.on, onHandle]
    cases s.hs[i]? with
    | none => simp [Prog.run, Except.map, Reply.apply]
    | some t =>
      simp only [Prog.bind_run]
      cases (t.insert P (ofList k) v).run s.state with
      | error e => rfl
      | ok r => simp [Except.map, Reply.apply]
  | extend i xs =>
    simp only [Sys.exec, Cmd.prog, Sys.on, onHandle]
    cases s.hs[i]? with
    | none => simp [Prog.run, Except.map, Reply.apply]
    | some t =>
      simp only [Prog.bind_run]
      cases (t.extend P (packEntries xs)).run s.state with
      | error e => rfl
      | ok r => simp [Except.map, Reply.apply]
  | delete i k =>
    simp only [Sys.exec, Cmd.prog, Sys.on, onHandle]
    cases s.hs[i]? with
    | none => simp [Prog.run, Except.map, Reply.apply]
    | some t =>
      simp only [Prog.bind_run]
      cases (t.delete P (ofList k)).run s.state with
      | error e => rfl
      | ok r => simp [Except.map, Reply.apply]
  | get i k =>
    simp only [Sys.exec, Cmd.prog, Sys.on, onHandle]
    cases s.hs[i]? with
    | none => simp [Prog.run, Except.map, Reply.apply]
    | some t =>
      simp only [Prog.bind_run]
      cases t.get P (ofList k) with
      | error e => rfl
      | ok r => simp [Except.map, Reply.apply]
  | hash i =>
    simp only [Sys.exec, Cmd.prog, Sys.on, onHandle]
    cases s.hs[i]? with
    | none => simp [Prog.run, Except.map, Reply.apply]
    | some t =>
      simp only [Prog.bind_run]
      cases (t.rootHash P kec).run s.state with
      | error e => rfl
      | ok r => simp [Except.map, Reply.apply]
  | items i =>
    simp only [Sys.exec, Cmd.prog, Sys.on, onHandle]
    cases s.hs[i]? with
    | none => simp [Prog.run, Except.map, Reply.apply]
    | some t =>
      simp only [Prog.bind_run]
      cases t.items P with
      | error e => rfl
      | ok r => simp [Except.map, Reply.apply]
  | eq i j =>
    simp only [Sys.exec, Cmd.prog, Sys.on, onHandle]
    cases s.hs[i]? with
    | none => simp [Prog.run, Except.map, Reply.apply]
    | some t =>
      cases s.hs[j]? with
      | none => simp [Prog.run, Except.map, Reply.apply]
      | some u => simp [Except.map, Reply.apply]
  | subset i ks =>
    simp only [Sys.exec, Cmd.prog, Sys.on, onHandle]
    cases s.hs[i]? with
    | none => simp [Prog.run, Except.map, Reply.apply]
    | some t =>
      simp only [Prog.bind_run]
      cases (createTrieSubset P kec t (ks.map ofList)).run s.state with
      | error e => rfl
      | ok r =>
        obtain ⟨r | r, st⟩ := r <;> simp [Except.map, Reply.apply]
  | subsets i kss =>
    simp only [Sys.exec, Cmd.prog, Sys.on, onHandle]
    cases s.hs[i]? with
    | none => simp [Prog.run, Except.map, Reply.apply]
    | some t =>
      simp only [Prog.bind_run]
      cases (createTrieSubsets P kec t (kss.map fun ks => ks.map ofList)).run s.state with
      | error e => rfl
      | ok r =>
        obtain ⟨r | r, st⟩ := r <;> simp [Except.map, Reply.apply]

section
variable {kec : Bytes → H256} {α S : Type} [K : TrieKind α S] [L : KindLaws kec α S]

/-- What may be in the cell of a root with contents `l`; `E`: it may be filled. -/
def CellOk (kec : Bytes → H256) (E : Prop) (l : LNode) (c : Option H256) : Prop :=
  c = none ∨ (E ∧ ∃ h, c = some h ∧ l.enc kec = .hashed h)

/-- What a call does to the cells of roots. -/
structure Borrow (α : Type) where
  /-- cells of roots may be filled -/
  E : Prop
  /-- the borrowed roots and their contents -/
  own : List (α × LNode)
  /-- they are borrowed for mutation -/
  mu : Prop

/-- What a call relies on. -/
structure Rely (kec : Bytes → H256) [L : KindLaws kec α S] (B : Borrow α) (w w' : L.W) : Prop where
  ole : L.ole w w'
  ok : ∀ x ∈ B.own, CellOk kec B.E x.2 (K.cacheGet x.1 (L.st w'))
  none : B.mu → ∀ x ∈ B.own, K.cacheGet x.1 (L.st w) = none → K.cacheGet x.1 (L.st w') = none

/-- What a call guarantees. -/
structure Guar (kec : Bytes → H256) [L : KindLaws kec α S] (B : Borrow α) (w w' : L.W) : Prop where
  ole : L.ole w w'
  cell : ∀ b, L.slot w' b none → K.cacheGet b (L.st w') = none ∨
    (L.slot w b none ∧ K.cacheGet b (L.st w') = K.cacheGet b (L.st w)) ∨
    (¬ B.mu ∧ B.E ∧ ∃ l, (b, l) ∈ B.own ∧ ∃ h, K.cacheGet b (L.st w') = some h ∧ l.enc kec = .hashed h)

theorem Rely.trans {B : Borrow α} {w1 w2 w3 : L.W} (h1 : Rely kec B w1 w2) (h2 : Rely kec B w2 w3) :
    Rely kec B w1 w3 :=
  ⟨L.ole_trans h1.ole h2.ole, h2.ok, fun hm x hx h => h2.none hm x hx (h1.none hm x hx h)⟩

theorem Guar.of_le {B : Borrow α} {w w' : L.W} (h : L.le w w') : Guar kec B w w' :=
  ⟨L.ole_of_le h, fun _ hb => (L.le_new h hb).elim (fun g => .inr (.inl ⟨g, L.le_cell h g⟩)) .inl⟩

/-- Emptying a cell. -/
theorem Guar.clear {B : Borrow α} {w w' : L.W} {a : α} (h : L.ole w w')
    (hs : L.st w' = K.cacheSet a none (L.st w)) : Guar kec B w w' := by
  refine ⟨h, fun b hb => ?_⟩
  by_cases e : b = a
  · subst e
    exact .inl (by rw [hs]; exact L.get_set_none _ _)
  · exact .inr (.inl ⟨L.ole_new a none h hs hb, by rw [hs, L.get_set_ne _ _ e]⟩)

/-- Filling the cell of a borrowed root. -/
theorem Guar.fill {B : Borrow α} {w w' : L.W} {a : α} {l : LNode} {h : H256} (hle : L.ole w w')
    (hs : L.st w' = K.cacheSet a (some h) (L.st w)) (hmu : ¬ B.mu) (hE : B.E ∨ ¬ L.real)
    (ha : (a, l) ∈ B.own) (he : l.enc kec = .hashed h) : Guar kec B w w' := by
  refine ⟨hle, fun b hb => ?_⟩
  by_cases hR : L.real
  · by_cases e : b = a
    · subst e
      exact .inr (.inr ⟨hmu, hE.resolve_right (not_not_intro hR), l, ha, h,
        by rw [hs]; exact L.get_set hR _ _ _, he⟩)
    · exact .inr (.inl ⟨L.ole_new a _ hle hs hb, by rw [hs, L.get_set_ne _ _ e]⟩)
  · exact .inl (L.not_real hR _ _)

/-- `m`, started in world `w`, does what `r` says, with results related by `Q`, whatever other threads
do that the call may rely on. -/
def RG {A B : Type} (kec : Bytes → H256) [L : KindLaws kec α S] (O : Borrow α) :
    L.W → Prog α A → R B → (L.W → A → B → Prop) → Prop
  | w, .ret a, r, Q => ∃ b, r = .ok b ∧ Q w a b
  | _, .panic e, r, _ => r = .error e
  | w, .alloc k, r, Q => ∀ w', Rely kec O w w' → ∃ w'', Guar kec O w' w'' ∧
    L.st w'' = (K.alloc (L.st w')).2 ∧ RG kec O w'' (k (K.alloc (L.st w')).1) r Q
  | w, .read a k, r, Q => ∀ w', Rely kec O w w' → RG kec O w' (k (K.cacheGet a (L.st w'))) r Q
  | w, .write a v k, r, Q => ∀ w', Rely kec O w w' → ∃ w'', Guar kec O w' w'' ∧
    L.st w'' = K.cacheSet a v (L.st w') ∧ RG kec O w'' k r Q

variable {A B C D : Type} {O : Borrow α}

theorem RG.of_sim {w : L.W} {m : Prog α A} {r : R B} {Q : L.W → A → B → Prop}
    (h : Sim kec w m r Q) : RG kec O w m r Q := by
  induction m generalizing w with
  | ret a => exact h
  | panic e => exact h
  | alloc k ih =>
    intro w' hr
    obtain ⟨w'', h1, h2, h3⟩ := h w' hr.ole
    exact ⟨w'', .of_le h1, h2, ih _ h3⟩
  | read a k ih => exact fun w' hr => ih _ (h w' hr.ole)
  | write a v k ih =>
    intro w' hr
    obtain ⟨w'', h1, h2, h3⟩ := h w' hr.ole
    exact ⟨w'', .of_le h1, h2, ih h3⟩

theorem RG.bind {w : L.W} {m : Prog α A} {r : R B} {Q : L.W → A → B → Prop}
    {f : A → Prog α C} {g : B → R D} {Q' : L.W → C → D → Prop}
    (h : RG kec O w m r Q)
    (hf : ∀ w' a b, L.ole w w' → Q w' a b → RG kec O w' (f a) (g b) Q') :
    RG kec O w (m >>= f) (r >>= g) Q' := by
  induction m generalizing w with
  | ret a =>
    obtain ⟨b, rfl, hq⟩ := h
    exact hf w a b (ole_refl w) hq
  | panic e =>
    have h : r = .error e := h
    subst h
    rfl
  | alloc k ih =>
    intro w' hle
    obtain ⟨w1, h1, h2, h3⟩ := h w' hle
    exact ⟨w1, h1, h2, ih _ h3 fun w'' a b h4 =>
      hf w'' a b (L.ole_trans hle.ole (L.ole_trans h1.ole h4))⟩
  | read a k ih =>
    intro w' hle
    exact ih _ (h w' hle) fun w'' a b h4 => hf w'' a b (L.ole_trans hle.ole h4)
  | write a v k ih =>
    intro w' hle
    obtain ⟨w1, h1, h2, h3⟩ := h w' hle
    exact ⟨w1, h1, h2, ih h3 fun w'' a b h4 =>
      hf w'' a b (L.ole_trans hle.ole (L.ole_trans h1.ole h4))⟩

theorem RG.with {w : L.W} {m : Prog α A} {r : R B} {Q : L.W → A → B → Prop}
    (h : RG kec O w m r Q) : RG kec O w m r (fun w x y => Q w x y ∧ r = .ok y) := by
  induction m generalizing w with
  | ret a =>
    obtain ⟨b, hb, hq⟩ := h
    exact ⟨_, hb, hq, hb⟩
  | panic e => exact h
  | alloc k ih =>
    intro w' hle
    obtain ⟨w1, h1, h2, h3⟩ := h w' hle
    exact ⟨w1, h1, h2, ih _ h3⟩
  | read a k ih => exact fun w' hle => ih _ (h w' hle)
  | write a v k ih =>
    intro w' hle
    obtain ⟨w1, h1, h2, h3⟩ := h w' hle
    exact ⟨w1, h1, h2, ih h3⟩

theorem RG.bind_ok {w : L.W} {m : Prog α A} {b : B} {Q : L.W → A → B → Prop}
    {f : A → Prog α C} {g : R D} {Q' : L.W → C → D → Prop}
    (h : RG kec O w m (.ok b) Q) (hf : ∀ w' a, L.ole w w' → Q w' a b → RG kec O w' (f a) g Q') :
    RG kec O w (m >>= f) g Q' := by
  refine RG.bind (O := O) (g := fun _ => g) h.with ?_
  rintro w' a b' hle ⟨hq, hb⟩
  cases hb
  exact hf w' a hle hq

theorem RG.lift_bind {w : L.W} {r : R A} {a : A} {f : A → Prog α C} {g : R D}
    {Q : L.W → C → D → Prop} (h : r = .ok a) (hf : RG kec O w (f a) g Q) :
    RG kec O w (Prog.lift r >>= f) g Q := by
  subst h
  exact hf

theorem RG.pure {w : L.W} {a : A} {b : B} {Q : L.W → A → B → Prop} (h : Q w a b) :
    RG kec O w (Pure.pure a : Prog α A) (.ok b) Q := ⟨b, rfl, h⟩

theorem RG.mono {w : L.W} {m : Prog α A} {r : R B} {Q Q' : L.W → A → B → Prop}
    (h : RG kec O w m r Q) (hq : ∀ w' a b, L.ole w w' → Q w' a b → Q' w' a b) :
    RG kec O w m r Q' := by
  induction m generalizing w with
  | ret a =>
    obtain ⟨b, rfl, h⟩ := h
    exact ⟨b, rfl, hq w a b (ole_refl w) h⟩
  | panic e => exact h
  | alloc k ih =>
    intro w' hle
    obtain ⟨w1, h1, h2, h3⟩ := h w' hle
    exact ⟨w1, h1, h2, ih _ h3 fun w'' a b h4 =>
      hq w'' a b (L.ole_trans hle.ole (L.ole_trans h1.ole h4))⟩
  | read a k ih =>
    intro w' hle
    exact ih _ (h w' hle) fun w'' a b h4 => hq w'' a b (L.ole_trans hle.ole h4)
  | write a v k ih =>
    intro w' hle
    obtain ⟨w1, h1, h2, h3⟩ := h w' hle
    exact ⟨w1, h1, h2, ih h3 fun w'' a b h4 =>
      hq w'' a b (L.ole_trans hle.ole (L.ole_trans h1.ole h4))⟩

/-- Steps of other threads. -/
theorem RG.later {w w' : L.W} {m : Prog α A} {r : R B} {Q : L.W → A → B → Prop}
    (h : RG kec O w m r Q) (hr : Rely kec O w w')
    (hq : ∀ w w' a b, Rely kec O w w' → Q w a b → Q w' a b) : RG kec O w' m r Q := by
  cases m with
  | ret a =>
    obtain ⟨b, rfl, h⟩ := h
    exact ⟨b, rfl, hq _ _ _ _ hr h⟩
  | panic e => exact h
  | alloc k => exact fun w'' h' => h w'' (hr.trans h')
  | read a k => exact fun w'' h' => h w'' (hr.trans h')
  | write a v k => exact fun w'' h' => h w'' (hr.trans h')

end
end EthTrie
