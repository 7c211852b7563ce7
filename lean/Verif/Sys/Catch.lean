import Verif.Sys.CatchModel
import Verif.Sys.Nodes

/-!
# Caught panics keep the invariant
-/

namespace EthTrie

open Spec KMap LNode Nibbles

theorem Prog.stop_of_run {α S β : Type} [TrieKind α S] {p : Prog α β} {s s' : S} {b : β}
    (h : p.run s = .ok (b, s')) : p.stop s = s' := by
  induction p generalizing s with
  | ret b => cases h; rfl
  | panic e => cases h
  | alloc k ih => exact ih _ h
  | read a k ih => exact ih _ h
  | write a v k ih => exact ih h

theorem Prog.stop_bind {α S β γ : Type} [TrieKind α S] (p : Prog α β) (f : β → Prog α γ) (s : S) :
    (p >>= f).stop s = match p.run s with
      | .ok (b, s') => (f b).stop s'
      | .error _ => p.stop s := by
  show (p.bind f).stop s = _
  induction p generalizing s with
  | ret b => rfl
  | panic e => rfl
  | alloc k ih => exact ih _ _
  | read a k ih => exact ih _ _
  | write a v k ih => exact ih _

section
variable {kec : Bytes → H256} {α S : Type} [K : TrieKind α S] [L : KindLaws kec α S] {w : L.W}
  {P : Profile} {s : Sys α S} {p : PSys} {Z : List (Trie α × LNode × Nat)}

/-- The memory of a simulated program that returns or panics. -/
theorem Sim.stop {A B : Type} {m : Prog α A} {r : R B} {Q : L.W → A → B → Prop}
    (h : Sim kec w m r Q) : ∃ w', m.stop (L.st w) = L.st w' ∧ L.le w w' := by
  induction m generalizing w with
  | ret a => exact ⟨w, rfl, L.le_refl w⟩
  | panic e => exact ⟨w, rfl, L.le_refl w⟩
  | alloc k ih =>
    obtain ⟨w1, h1, h2, h3⟩ := h w (ole_refl w)
    obtain ⟨w2, g1, g2⟩ := ih _ h3
    rw [h2] at g1
    exact ⟨w2, g1, L.le_trans h1 g2⟩
  | read a k ih => exact ih _ (h w (ole_refl w))
  | write a v k ih =>
    obtain ⟨w1, h1, h2, h3⟩ := h w (ole_refl w)
    obtain ⟨w2, g1, g2⟩ := ih h3
    rw [h2] at g1
    exact ⟨w2, g1, L.le_trans h1 g2⟩

/-- The loop of `extend` on list-keyed tries. -/
def LNode.putUntil (l : LNode) : List (Key × ValOrHash) → LNode
  | [] => l
  | (k, v) :: xs => match l.insert k v with
    | .ok l' => putUntil l' xs
    | .error _ => l

/-- The loop of `extend`, whether it panics or not. -/
theorem extendUntil_run : ∀ (xs : List (Key × ValOrHash)) (t : Trie α) (l : LNode) (w : L.W),
    RepN kec w t l → l.Bound 127 → l.ExtOK → (∀ x ∈ xs, x.1.length ≤ 127) →
    ∃ w', (extendUntil P t (packEntries xs) (L.st w)).2 = L.st w' ∧ L.le w w' ∧
      RepN kec w' (extendUntil P t (packEntries xs) (L.st w)).1 (l.putUntil xs) ∧
      (extendUntil P t (packEntries xs) (L.st w)).1.ann = t.ann ∧ (l.putUntil xs).Bound 127 ∧
      (l.putUntil xs).ExtOK := by
  intro xs
  induction xs with
  | nil => intro t l w h hb he _; exact ⟨w, rfl, L.le_refl w, h, rfl, hb, he⟩
  | cons x xs ih =>
    intro t l w ht hb he hx
    obtain ⟨k, v⟩ := x
    have hs := sim_trieInsert (P := P) (k := k) (v := v) ht hb (hx _ List.mem_cons_self)
    simp only [packEntries, List.map_cons, extendUntil, LNode.putUntil]
    cases hr : l.insert k v with
    | error e =>
      rw [hr] at hs
      have h1 : (trieInsert P t (ofList k) v : Prog α (Trie α)).run (L.st w) = .error e := hs.run
      obtain ⟨w', g1, g2⟩ := hs.stop
      rw [h1]
      exact ⟨w', g1, g2, ht.omono (L.ole_of_le g2), rfl, hb, he⟩
    | ok l' =>
      rw [hr] at hs
      obtain ⟨t', w', h1, h2, h3, h4⟩ := hs.run
      rw [h1]
      obtain ⟨w2, g1, g2, g3, g4, g5, g6⟩ := ih t' l' w' h3
        (LNode.insert_bound hb (hx _ List.mem_cons_self) hr) (LNode.insert_extOK he hr).1
        fun y hy => hx y (List.mem_cons_of_mem _ hy)
      exact ⟨w2, g1, L.le_trans h2 g2, g3, g4.trans h4, g5, g6⟩

/-- A call of `create_trie_subsets` that panics has done what a call for the first lists of keys does. -/
theorem subsets_stop {C : Bool} (hC : C = true ↔ L.real) :
    ∀ (kss : List (List Key)) (l : LTracked) (t : Tracked α) (w : L.W) {e : Panic},
    RepT kec w t l → l.node.Bound 127 → L.slot w t.u.ann none →
    (∀ ks ∈ kss, ∀ k ∈ ks, k.length ≤ 127) →
    (createTrieSubsetsFrom P kec t (kss.map fun ks => ks.map ofList)).run (L.st w) = .error e →
    ∃ n ts, (createTrieSubsetsFrom P kec t ((kss.take n).map fun ks => ks.map ofList)).run (L.st w) =
      .ok (.ok ts, (createTrieSubsetsFrom P kec t (kss.map fun ks => ks.map ofList)).stop (L.st w)) := by
  intro kss
  induction kss with
  | nil => intro l t w e _ _ _ _ h; cases h
  | cons ks kss ih =>
    intro l t w e ht hb ho hk h
    have hm := markRel_ok (P := P) ht hb (hk ks List.mem_cons_self)
    simp only [List.map_cons, createTrieSubsetsFrom, Prog.bind_run] at h ⊢
    rw [Prog.stop_bind]
    cases hx : markAll P t (ks.map ofList) with
    | error e' => exact ⟨0, [], rfl⟩
    | ok x =>
      cases hy : l.markAll P ks with
      | error e' => rw [hx, hy] at hm; exact hm.elim
      | ok y =>
        rw [hx, hy] at hm
        rw [hx] at h
        simp only [Prog.lift_run_ok] at h ⊢
        cases x with
        | error e => cases h
        | ok t1 =>
          cases y with
          | error k => exact hm.elim
          | ok l1 =>
            have ht1 : RepT kec w t1 l1 := hm
            have hnode := LTracked.markAll_node P ks l l1 hy
            have hu : t1.u = t.u := mark_u_all hx
            obtain ⟨t', w1, h1, h2, h3, h4⟩ := createSubset_root (P := P) hC
              ht1 (by rw [hu]; exact ho)
            simp only [Prog.bind_run, h1] at h
            simp only [Prog.stop_bind, h1]
            cases hr : (createTrieSubsetsFrom P kec (resetTracked t1)
                (kss.map fun ks => ks.map ofList)).run (L.st w1) with
            | ok r =>
              rw [hr] at h
              obtain ⟨r, σ⟩ := r
              cases r <;> cases h
            | error e' =>
              obtain ⟨n, ts, g⟩ := ih l1.reset (resetTracked t1) w1 (ht1.omono h2).reset
                (by rw [LTracked.reset_node, hnode]; exact hb)
                (by rw [u_reset, hu]; exact L.slot_mono h2 ho)
                (fun ks' hks' => hk ks' (List.mem_cons_of_mem _ hks')) hr
              refine ⟨n + 1, t' :: ts, ?_⟩
              simp only [List.take_succ_cons, List.map_cons, createTrieSubsetsFrom, Prog.bind_run, hx,
                Prog.lift_run_ok, h1, g]
              rfl

/-- Handles are dropped. -/
theorem Inv.drop (h : Inv kec w s p Z) {Z' : List (Trie α × LNode × Nat)} (hz : Z'.Sublist Z) :
    Inv kec w ⟨s.state, Z'.map (·.1)⟩ ⟨Z'.map (·.2), p.filled, p.next⟩ Z' :=
  ⟨h.state, rfl, rfl, fun a ha => h.ok a (hz.subset ha),
    fun a ha b hb => h.share a (hz.subset ha) b (hz.subset hb),
    fun hR a ha b hb => h.sep hR a (hz.subset ha) b (hz.subset hb), h.above⟩

end

namespace PSys

theorem own_nodup (l : List (LNode × Nat)) :
    (∀ (i j : Nat) (a b : LNode × Nat), l[i]? = some a → l[j]? = some b → a.2 = b.2 → i = j) ↔
      (l.map (·.2)).Nodup := by
  rw [List.Nodup, List.pairwise_iff_getElem]
  constructor
  · intro h i j hi hj hlt e
    rw [List.length_map] at hi hj
    have := h i j l[i] l[j] (List.getElem?_eq_getElem hi) (List.getElem?_eq_getElem hj)
      (by simpa using e)
    omega
  · intro h i j a b hi hj e
    obtain ⟨hi1, rfl⟩ := List.getElem?_eq_some_iff.1 hi
    obtain ⟨hj1, rfl⟩ := List.getElem?_eq_some_iff.1 hj
    have hi' : i < (l.map (·.2)).length := by rw [List.length_map]; exact hi1
    have hj' : j < (l.map (·.2)).length := by rw [List.length_map]; exact hj1
    rcases Nat.lt_trichotomy i j with hlt | heq | hlt
    · have := h i j hi' hj' hlt
      simp only [List.getElem_map] at this
      exact absurd e this
    · exact heq
    · have := h j i hj' hi' hlt
      simp only [List.getElem_map] at this
      exact absurd e.symm this

theorem Own.drop {kec : Bytes → H256} {p : PSys} (h : p.Own kec) {hs : List (LNode × Nat)}
    (hz : hs.Sublist p.hs) : (⟨hs, p.filled, p.next⟩ : PSys).Own kec :=
  ⟨fun a ha => h.below a (hz.subset ha),
    (own_nodup hs).2 (((own_nodup p.hs).1 h.inj).sublist (hz.map _)),
    fun a ha => h.right a (hz.subset ha), h.above⟩

theorem Own.assign {kec : Bytes → H256} {p : PSys} (h : p.Own kec) {i f : Nat} {l l' : LNode}
    (hi : p.hs[i]? = some (l, f)) (hf : p.filled f = none) :
    (⟨p.hs.set i (l', f), p.filled, p.next⟩ : PSys).Own kec := by
  have := h.mutate hi l'
  have e : upd p.filled f none = p.filled := by
    funext g
    by_cases hg : g = f
    · subst hg; rw [upd_same, hf]
    · exact upd_other _ _ hg
  simp only [e] at this
  exact this

end PSys

variable {K : Kind} {M : Mode} {P : Profile} {kec : Bytes → H256} {s : Sys K.Ann K.State}

theorem LiveInv.drop (h : LiveInv K M kec s) {hs : List (Trie K.Ann)} (hz : hs.Sublist s.hs) :
    LiveInv K M kec ⟨s.state, hs⟩ := by
  obtain ⟨w, p, Z, h1, h2⟩ := h.ex
  rw [h1.hs] at hz
  obtain ⟨Z', hZ, rfl⟩ := List.sublist_map_iff.1 hz
  refine ⟨w, _, Z', h1.drop hZ, fun hK => ?_⟩
  have h2 := h2 hK
  cases M with
  | noClone => exact PSys.Own.drop h2 (by rw [h1.phs]; exact hZ.map _)
  | noEmptySubset => exact h2
  | any => trivial

/-- The cache cell of a handle is empty. -/
def Sys.EmptyAt {α S : Type} [K : TrieKind α S] (s : Sys α S) (i : Nat) : Prop :=
  ∀ t, s.hs[i]? = some t → K.cacheGet t.ann s.state = none

/-- The calls whose panics may be caught: all of them, except that an `extend` may not end early if
nothing is known about clones and the cell of the handle is filled. -/
def Sys.Catchable (K : Kind) (M : Mode) (s : Sys K.Ann K.State) : Cmd → Prop
  | .extend i _ => K = .hashed → M = .noClone → s.EmptyAt i
  | _ => True

theorem LiveInv.later (h : LiveInv K M kec s) {σ : K.State}
    (hs : ∀ w p Z, Inv (L := Kind.laws kec K) kec w s p Z →
      ∃ w', σ = (Kind.laws kec K).st w' ∧ (Kind.laws kec K).le w w') :
    LiveInv K M kec ⟨σ, s.hs⟩ := by
  obtain ⟨w, p, Z, h1, h2⟩ := h.ex
  obtain ⟨w', rfl, g⟩ := hs w p Z h1
  exact ⟨w', p, Z, h1.step_le g, h2⟩

theorem onS_cases (s : Sys K.Ann K.State) (i : Nat) (f : Trie K.Ann → Sys K.Ann K.State) :
    (s.hs[i]? = none ∧ s.onS i f = s) ∨ ∃ t, s.hs[i]? = some t ∧ s.onS i f = f t := by
  unfold Sys.onS
  cases s.hs[i]? with
  | none => exact .inl ⟨rfl, rfl⟩
  | some t => exact .inr ⟨t, rfl, rfl⟩

/-- An `extend` that ends early. -/
theorem LiveInv.extendUntil (h : LiveInv K M kec s) {i : Nat} {xs : List (Key × ValOrHash)}
    (hs : ∀ x ∈ xs, x.1.length ≤ 127) (hp : s.Catchable K M (.extend i xs)) :
    LiveInv K M kec (s.afterPanic P kec (.extend i xs)) := by
  rw [Sys.afterPanic]
  rcases onS_cases s i _ with ⟨_, e⟩ | ⟨t, hi, e⟩ <;> rw [e]
  · exact h
  · obtain ⟨w, p, Z, h1, h2⟩ := h.ex
    obtain ⟨l, f, hz⟩ := h1.zip hi
    have hok := h1.ok _ (List.mem_of_getElem? hz)
    obtain ⟨w', g1, g2, g3, g4, g5, g6⟩ := extendUntil_run (P := P) xs t l w hok.rep hok.bound hok.ext hs
    have i1 := (h1.step_le g2).assign hz g3 g5 g6
    have e : ∀ u : Trie K.Ann, u.ann = t.ann → u.setAnn t.ann = u := by
      intro u hu; cases u <;> cases hu <;> rfl
    rw [e _ g4, ← g1] at i1
    rw [← h1.state] at i1
    refine ⟨w', _, _, i1, fun hK => ?_⟩
    have h3 := h2 hK
    cases M with
    | noClone =>
      refine PSys.Own.assign h3 (l := l) (by rw [h1.phs, List.getElem?_map, hz]; rfl) ?_
      have hc := hok.cell
      rw [← h1.state] at hc
      exact hc.symm.trans (hp hK rfl t hi)
    | noEmptySubset => exact h3
    | any => trivial

/-- A call for a subset that panics has done nothing. -/
theorem subset_stop {w : (Kind.laws kec K).W} {p : PSys} {Z : List (Trie K.Ann × LNode × Nat)}
    (h1 : Inv (L := Kind.laws kec K) kec w s p Z) {i : Nat} {t : Trie K.Ann} (hi : s.hs[i]? = some t)
    {ks : List Key} (hs : ∀ k ∈ ks, k.length ≤ 127) {e : Panic}
    (he : s.exec P kec (.subset i ks) = .error e) :
    (createTrieSubset P kec t (ks.map ofList)).stop s.state = s.state := by
  obtain ⟨l, f, hz⟩ := h1.zip hi
  have hok := h1.ok _ (List.mem_of_getElem? hz)
  have hm := markRel_ok (P := P) hok.rep.tracked (by rw [LTracked.node_new]; exact hok.bound) hs
  simp only [Sys.exec, Sys.on, hi, createTrieSubset, Prog.bind_run, h1.state] at he
  simp only [createTrieSubset, Prog.stop_bind, h1.state]
  cases hx : markAll P (Tracked.new t) (ks.map ofList) with
  | error e' => rfl
  | ok x =>
    rw [hx] at he hm
    simp only [Prog.lift_run_ok] at he ⊢
    cases x with
    | error e => cases he
    | ok t1 =>
      cases hy : (LTracked.new l).markAll P ks with
      | error e' => rw [hy] at hm; exact hm.elim
      | ok y =>
        rw [hy] at hm
        cases y with
        | error k => exact hm.elim
        | ok l1 =>
          have hu : t1.u = t := (mark_u_all hx).trans (u_new t)
          obtain ⟨t', w1, h3, _⟩ := createSubset_root (P := P) (K.cells_real kec)
            (show RepT kec w t1 l1 from hm) (by rw [hu]; exact hok.slot)
          simp only [Prog.bind_run, h3] at he
          cases he

/-- A call for several subsets that panics has done what a call for the first ones does. -/
theorem subsets_taken {w : (Kind.laws kec K).W} {p : PSys} {Z : List (Trie K.Ann × LNode × Nat)}
    (h1 : Inv (L := Kind.laws kec K) kec w s p Z) {i : Nat} {t : Trie K.Ann} (hi : s.hs[i]? = some t)
    {kss : List (List Key)} (hs : ∀ ks ∈ kss, ∀ k ∈ ks, k.length ≤ 127) {e : Panic}
    (he : s.exec P kec (.subsets i kss) = .error e) :
    ∃ n ts, s.exec P kec (.subsets i (kss.take n)) =
      .ok (⟨(createTrieSubsets P kec t (kss.map fun ks => ks.map ofList)).stop s.state, s.hs ++ ts⟩,
        .unit) := by
  obtain ⟨l, f, hz⟩ := h1.zip hi
  have hok := h1.ok _ (List.mem_of_getElem? hz)
  have he' : (createTrieSubsetsFrom P kec (Tracked.new t) (kss.map fun ks => ks.map ofList)).run
      ((Kind.laws kec K).st w) = .error e := by
    simp only [Sys.exec, Sys.on, hi, createTrieSubsets, h1.state] at he
    cases hr : (createTrieSubsetsFrom P kec (Tracked.new t) (kss.map fun ks => ks.map ofList)).run
      ((Kind.laws kec K).st w) with
    | error e' => rw [hr] at he; cases he; rfl
    | ok r =>
      rw [hr] at he
      obtain ⟨r, σ⟩ := r
      cases r <;> cases he
  obtain ⟨n, ts, g⟩ := subsets_stop (P := P) (K.cells_real kec) kss _ _ w hok.rep.tracked
    (by rw [LTracked.node_new]; exact hok.bound) (by rw [u_new]; exact hok.slot) hs he'
  refine ⟨n, ts, ?_⟩
  simp only [Sys.exec, Sys.on, hi, createTrieSubsets, h1.state, g]
  rfl

/-- Caught panics. -/
theorem LiveInv.caught (h : LiveInv K M kec s) {c : Cmd} (hs : c.Short) (hp : permitted K M c)
    (hc : s.Catchable K M c) {e : Panic} (he : s.exec P kec c = .error e) :
    LiveInv K M kec (s.afterPanic P kec c) := by
  cases c with
  | extend i xs => exact h.extendUntil hs hc
  | fromIter xs =>
    refine h.later fun w p Z h1 => ?_
    simp only [EthTrie.fromIter, Prog.stop_bind, h1.state]
    obtain ⟨t, w1, h2, h3, h4⟩ := (sim_new (L := Kind.laws kec K) (w := w) (fun a => .empty a) .empty true
      (fun _ => rfl) (fun _ _ _ => .empty _)).run
    rw [show (newEmpty : Prog K.Ann (Trie K.Ann)).run ((Kind.laws kec K).st w) =
      .ok (t, (Kind.laws kec K).st w1) from h2]
    simp only [Trie.extend, Prog.stop_bind]
    have hsim := sim_trieExtend (P := P) xs t .empty w1 h4.freshRoot.rep trivial hs
    cases hr : (trieExtend P t (packEntries xs)).run ((Kind.laws kec K).st w1) with
    | error e' =>
      obtain ⟨w', g1, g2⟩ := hsim.stop
      exact ⟨w', g1, (Kind.laws kec K).le_trans h3 g2⟩
    | ok r =>
      simp only [Sys.exec, EthTrie.fromIter, Prog.bind_run, h1.state] at he
      rw [show (newEmpty : Prog K.Ann (Trie K.Ann)).run ((Kind.laws kec K).st w) =
        .ok (t, (Kind.laws kec K).st w1) from h2] at he
      simp only [Trie.extend, Prog.bind_run, hr] at he
      cases he
  | insert i k v =>
    rw [Sys.afterPanic]
    rcases onS_cases s i _ with ⟨_, e⟩ | ⟨t, hi, e⟩ <;> rw [e]
    · exact h
    refine h.later fun w p Z h1 => ?_
    obtain ⟨l, f, hz⟩ := h1.zip hi
    have hok := h1.ok _ (List.mem_of_getElem? hz)
    have hsim := sim_trieInsert (P := P) (k := k) (v := v) hok.rep hok.bound hs
    simp only [Trie.insert, Prog.stop_bind, h1.state]
    cases hr : (trieInsert P t (ofList k) v).run ((Kind.laws kec K).st w) with
    | error e' => exact hsim.stop
    | ok r =>
      simp only [Sys.exec, Sys.on, hi, Trie.insert, Prog.bind_run, h1.state, hr] at he
      cases he
  | delete i k =>
    rw [Sys.afterPanic]
    rcases onS_cases s i _ with ⟨_, e⟩ | ⟨t, hi, e⟩ <;> rw [e]
    · exact h
    refine h.later fun w p Z h1 => ?_
    obtain ⟨l, f, hz⟩ := h1.zip hi
    have hok := h1.ok _ (List.mem_of_getElem? hz)
    have hsim := sim_trieDelete (P := P) (k := k) hok.rep hok.bound hs
    simp only [Trie.delete, Prog.stop_bind, h1.state]
    cases hr : (trieDelete P t (ofList k)).run ((Kind.laws kec K).st w) with
    | error e' => exact hsim.stop
    | ok r =>
      simp only [Sys.exec, Sys.on, hi, Trie.delete, Prog.bind_run, h1.state, hr] at he
      cases he
  | hash i =>
    rw [Sys.afterPanic]
    rcases onS_cases s i _ with ⟨_, e⟩ | ⟨t, hi, e⟩ <;> rw [e]
    · exact h
    refine h.later fun w p Z h1 => ?_
    obtain ⟨l, f, hz⟩ := h1.zip hi
    obtain ⟨x, w', g1, g2, _⟩ := run_rootHash (P := P) (h1.ok _ (List.mem_of_getElem? hz)).rep
    exact ⟨w', by rw [h1.state, Prog.stop_of_run g1], g2⟩
  | subset i ks =>
    rw [Sys.afterPanic]
    rcases onS_cases s i _ with ⟨_, e⟩ | ⟨t, hi, e⟩ <;> rw [e]
    · exact h
    refine h.later fun w p Z h1 => ?_
    exact ⟨w, (subset_stop h1 hi hs he).trans h1.state, (Kind.laws kec K).le_refl w⟩
  | subsets i kss =>
    rw [Sys.afterPanic]
    rcases onS_cases s i _ with ⟨_, eq⟩ | ⟨t, hi, eq⟩ <;> rw [eq]
    · exact h
    obtain ⟨w, p, Z, h1, h2⟩ := h.ex
    obtain ⟨n, ts, g⟩ := subsets_taken h1 hi hs he
    have hst := h.step (c := .subsets i (kss.take n)) (fun ks hk => hs ks (List.mem_of_mem_take hk)) (by
      cases K with
      | standard => trivial
      | hashed => cases M <;> first | trivial | exact fun hm => hp (List.mem_of_mem_take hm)) g
    exact hst.drop (List.sublist_append_left _ _)
  | new => exact h
  | clone i => exact h
  | get i k => exact h
  | items i => exact h
  | eq i j => exact h

end EthTrie
