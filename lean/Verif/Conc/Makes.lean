import Verif.Conc.Refine

/-!
# New handles have cells of their own
-/

namespace EthTrie

open Nibbles Spec

namespace Prog
variable {α β γ : Type}

/-- `Q` holds for the cells that have been made, `m` at the start, and the result. -/
def Makes : List α → Prog α β → (List α → β → Prop) → Prop
  | m, .ret b, Q => Q m b
  | _, .panic _, _ => True
  | m, .alloc k, Q => ∀ a, a ∉ m → Makes (a :: m) (k a) Q
  | m, .read _ k, Q => ∀ o, Makes m (k o) Q
  | m, .write _ _ k, Q => Makes m k Q

theorem Makes.bind {m : List α} {p : Prog α β} {Q : List α → β → Prop} {f : β → Prog α γ}
    {Q' : List α → γ → Prop} (h : Makes m p Q)
    (hf : ∀ m' b, m ⊆ m' → Q m' b → Makes m' (f b) Q') : Makes m (p >>= f) Q' := by
  induction p generalizing m with
  | ret b => exact hf m b (fun _ h => h) h
  | panic e => trivial
  | alloc k ih =>
    intro a ha
    exact ih a (h a ha) fun m' b hm => hf m' b fun x hx => hm (List.mem_cons_of_mem _ hx)
  | read a k ih => exact fun o => ih o (h o) hf
  | write a v k ih => exact ih h hf

theorem makes_any (m : List α) (p : Prog α β) : Makes m p (fun _ _ => True) := by
  induction p generalizing m with
  | ret b => trivial
  | panic e => trivial
  | alloc k ih => exact fun a _ => ih a _
  | read a k ih => exact fun o => ih o _
  | write a v k ih => exact ih _

theorem Makes.mono {m : List α} {p : Prog α β} {Q Q' : List α → β → Prop} (h : Makes m p Q)
    (hq : ∀ m' b, m ⊆ m' → Q m' b → Q' m' b) : Makes m p Q' := by
  induction p generalizing m with
  | ret b => exact hq m b (fun _ h => h) h
  | panic e => trivial
  | alloc k ih =>
    intro a ha
    exact ih a (h a ha) fun m' b hm => hq m' b fun x hx => hm (List.mem_cons_of_mem _ hx)
  | read a k ih => exact fun o => ih o (h o) hq
  | write a v k ih => exact ih h hq

/-- After anything. -/
theorem Makes.after {m : List α} {p : Prog α β} {f : β → Prog α γ} {Q' : List α → γ → Prop}
    (hf : ∀ m' b, m ⊆ m' → Makes m' (f b) Q') : Makes m (p >>= f) Q' :=
  (makes_any m p).bind fun m' b hm _ => hf m' b hm

end Prog

open Prog

section
variable {α : Type} {P : Profile} {kec : Bytes → H256}

/-- The root of `t` is made after `m`. -/
def MadeAfter (m m' : List α) (t : Trie α) : Prop := t.ann ∈ m' ∧ t.ann ∉ m

theorem makes_new {m0 m : List α} (hm : m0 ⊆ m) {f : α → Trie α} (hf : ∀ a, (f a).ann = a) :
    Makes m (.alloc fun a => .ret (f a)) (MadeAfter m0) := by
  intro a ha
  show MadeAfter m0 _ _
  unfold MadeAfter
  rw [hf]
  exact ⟨List.mem_cons_self, fun h => ha (hm h)⟩

theorem makes_createBody {m0 m : List α} (hm : m0 ⊆ m) (t : Tracked α) :
    Makes m (createBody P kec t) (MadeAfter m0) := by
  cases t with
  | empty u b => exact makes_new hm fun _ => rfl
  | hash u b => exact Makes.after fun m' h hm' => makes_new (fun _ h => hm' (hm h)) fun _ => rfl
  | branch u b cs =>
    refine Makes.after fun m1 v h1 => ?_
    refine Makes.after fun m2 ts h2 => ?_
    refine Makes.after fun m3 e h3 => ?_
    exact makes_new (fun _ h => h3 (h2 (h1 (hm h)))) fun _ => rfl
  | ext u b c =>
    refine Makes.after fun m1 n h1 => ?_
    refine Makes.after fun m2 t h2 => ?_
    exact makes_new (fun _ h => h2 (h1 (hm h))) fun _ => rfl
  | leaf u b =>
    refine Makes.after fun m1 n h1 => ?_
    exact makes_new (fun _ h => h1 (hm h)) fun _ => rfl

theorem makes_createSubset (m : List α) (t : Tracked α) :
    Makes m (createSubset P kec t) (MadeAfter m) := by
  rw [createSubset_eq]
  refine Makes.after fun m1 o h1 => ?_
  cases o with
  | some h => exact makes_new h1 fun _ => rfl
  | none => exact makes_createBody h1 t

/-- The roots of new tries are different, and made after `m`. -/
def AllMade (m m' : List α) (ts : List (Trie α)) : Prop :=
  (ts.map Trie.ann).Nodup ∧ ∀ t ∈ ts, MadeAfter m m' t

theorem AllMade.single {m m' : List α} {t : Trie α} (h : MadeAfter m m' t) : AllMade m m' [t] :=
  ⟨by simp, by simpa using h⟩

theorem makes_subsets (kss : List (List Nibbles)) : ∀ (m : List α) (t : Tracked α),
    Makes m (createTrieSubsetsFrom P kec t kss) (fun m' r => ∀ ts, r = .ok ts → AllMade m m' ts) := by
  induction kss with
  | nil =>
    intro m t ts h
    cases h
    exact ⟨.nil, by simp⟩
  | cons ks kss ih =>
    intro m t
    refine Makes.after fun m1 r h1 => ?_
    cases r with
    | error e => intro ts h; cases h
    | ok tr =>
      refine (makes_createSubset m1 tr).bind fun m2 t' h2 ht' => ?_
      refine (ih m2 (resetTracked tr)).bind fun m3 r h3 hr => ?_
      cases r with
      | error e => intro ts h; cases h
      | ok ts =>
        intro ts' h
        cases h
        obtain ⟨g1, g2⟩ := hr ts rfl
        refine ⟨?_, ?_⟩
        · rw [List.map_cons, List.nodup_cons]
          refine ⟨fun hmem => ?_, g1⟩
          obtain ⟨u, hu, hue⟩ := List.mem_map.mp hmem
          exact (g2 u hu).2 (by rw [hue]; exact ht'.1)
        · intro u hu
          rcases List.mem_cons.mp hu with rfl | hu
          · exact ⟨h3 ht'.1, fun h => ht'.2 (h1 h)⟩
          · exact ⟨(g2 u hu).1, fun h => (g2 u hu).2 (h2 (h1 h))⟩

theorem makes_trieExtend (xs : List (Nibbles × ValOrHash)) : ∀ (m : List α) (t : Trie α),
    Makes m (trieExtend P t xs) (fun _ t' => t'.ann = t.ann) := by
  induction xs with
  | nil => intro m t; rfl
  | cons x xs ih =>
    intro m t
    obtain ⟨k, v⟩ := x
    simp only [trieExtend]
    refine Makes.bind (Q := fun _ t' => t'.ann = t.ann) ?_ fun m1 t1 h1 ht1 => ?_
    · refine Makes.after fun m1 o h1 => ?_
      cases o with
      | none => trivial
      | some t' => exact ann_setAnn _ _
    · exact (ih m1 t1).mono fun m2 t2 _ h => h.trans ht1

theorem makes_fromIter (xs : List (Nibbles × ValOrHash)) (m : List α) :
    Makes m (fromIter P xs) (MadeAfter m) := by
  refine (makes_new (m0 := m) (fun _ h => h) fun _ => rfl).bind fun m1 t1 h1 ht1 => ?_
  refine (makes_trieExtend xs m1 t1).bind fun m2 t2 h2 ht2 => ?_
  show MadeAfter m m2 t2
  unfold MadeAfter
  rw [ht2]
  exact ⟨h2 ht1.1, ht1.2⟩

theorem makes_onHandle {hs : List (Trie α)} {i : Nat} {f : Trie α → Prog α (Reply α)}
    (h : ∀ t, Makes [] (f t) (fun m x => AllMade [] m x.new)) :
    Makes [] (onHandle hs i f) (fun m x => AllMade [] m x.new) := by
  unfold onHandle
  cases hs[i]? with
  | none => exact ⟨.nil, by simp⟩
  | some t => exact h t

/-- The new handles of a call have cells that it has made itself. -/
theorem makes_prog {hs : List (Trie α)} {c : Cmd} (hc : ∀ i, c ≠ .clone i) :
    Makes [] (c.prog P kec hs) (fun m x => AllMade [] m x.new) := by
  have none : ∀ m : List α, AllMade [] m ([] : List (Trie α)) := fun m => ⟨.nil, by simp⟩
  cases c with
  | new =>
    exact (makes_new (m0 := []) (fun _ h => h) fun _ => rfl).bind fun m1 t1 h1 ht1 => .single ht1
  | fromIter xs => exact (makes_fromIter _ []).bind fun m1 t1 h1 ht1 => .single ht1
  | clone i => exact absurd rfl (hc i)
  | insert i k v => exact makes_onHandle fun t => Makes.after fun m x _ => none m
  | extend i xs => exact makes_onHandle fun t => Makes.after fun m x _ => none m
  | delete i k => exact makes_onHandle fun t => Makes.after fun m x _ => none m
  | get i k => exact makes_onHandle fun t => Makes.after fun m x _ => none m
  | hash i => exact makes_onHandle fun t => Makes.after fun m x _ => none m
  | items i => exact makes_onHandle fun t => Makes.after fun m x _ => none m
  | eq i j => exact makes_onHandle fun t => makes_onHandle fun u => none []
  | subset i ks =>
    refine makes_onHandle fun t => ?_
    refine Makes.bind (Q := fun m r => ∀ t', r = .ok t' → MadeAfter [] m t') ?_ fun m r hm hr => ?_
    · refine Makes.after fun m1 r h1 => ?_
      cases r with
      | error e => intro t' h; cases h
      | ok tr =>
        refine (makes_createSubset m1 tr).bind fun m2 t' h2 ht' => ?_
        intro t'' h
        cases h
        exact ⟨ht'.1, by simp⟩
    · cases r with
      | error e => exact none m
      | ok t' => exact .single (hr t' rfl)
  | subsets i kss =>
    refine makes_onHandle fun t => ?_
    refine (makes_subsets _ [] _).bind fun m r hm hr => ?_
    cases r with
    | error e => exact none m
    | ok ts => exact hr ts rfl

end
end EthTrie
