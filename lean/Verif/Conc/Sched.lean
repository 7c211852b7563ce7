import Verif.Conc.Calls

/-!
# Executing a concurrent program in a given order

For examples: `Conc.sched` makes the steps of the threads in the order given by a list of actions.
-/

namespace EthTrie

/-- What happens next: an idle thread calls a function, or a thread makes `n` steps of its call. -/
inductive Act
  | call (j : Nat) (c : Cmd)
  | go (j : Nat) (n : Nat)

/-- `Cmd.Compatible` as a computation. -/
def Cmd.compatible (c d : Cmd) : Bool :=
  (match c.mutates with
    | none => true
    | some i => !d.uses.contains i) &&
  (match d.mutates with
    | none => true
    | some i => !c.uses.contains i)

theorem Cmd.compatible_iff (c d : Cmd) : c.compatible d = true ↔ c.Compatible d := by
  unfold Cmd.compatible Cmd.Compatible
  rcases c.mutates with _ | i <;> rcases d.mutates with _ | j <;> simp

namespace Conc
variable {α S : Type} [K : TrieKind α S] (P : Profile) (kec : Bytes → H256)

/-- One step of thread `j`. -/
def go1 (x : Conc α S) (j : Nat) : Option (Conc α S) :=
  match x.threads[j]? with
  | some (some (c, .alloc k)) => some ⟨⟨(K.alloc x.sys.state).2, x.sys.hs⟩,
      x.threads.set j (some (c, k (K.alloc x.sys.state).1)), x.log⟩
  | some (some (c, .read a k)) =>
    some ⟨x.sys, x.threads.set j (some (c, k (K.cacheGet a x.sys.state))), x.log⟩
  | some (some (c, .write a v k)) =>
    some ⟨⟨K.cacheSet a v x.sys.state, x.sys.hs⟩, x.threads.set j (some (c, k)), x.log⟩
  | some (some (c, .ret r)) =>
    some ⟨⟨x.sys.state, r.apply x.sys.hs⟩, x.threads.set j none, x.log ++ [(c, r.obs)]⟩
  | some (some (c, .panic _)) =>
    if c.isExtend = false then some ⟨x.sys, x.threads.set j none, x.log⟩ else none
  | _ => none

/-- One action; a thread makes at most `n` steps and stops at the end of its call. -/
def act (x : Conc α S) : Act → Option (Conc α S)
  | .call j c =>
    match x.threads[j]? with
    | some none =>
      if c.uses.all (· < x.sys.hs.length) && x.threads.all (fun t =>
          match t with
          | none => true
          | some (d, _) => d.compatible c) then
        some ⟨x.sys, x.threads.set j (some (c, c.prog P kec x.sys.hs)), x.log⟩
      else none
    | _ => none
  | .go j n => some (n.rec (motive := fun _ => Conc α S → Conc α S) id
      (fun _ f x => match x.go1 j with
        | none => x
        | some y => f y) x)

/-- A sequence of actions. -/
def sched (x : Conc α S) : List Act → Option (Conc α S)
  | [] => some x
  | a :: as => (x.act P kec a).bind fun y => y.sched as

variable {P kec}

theorem go1_sound {x y : Conc α S} {j : Nat} (h : x.go1 j = some y) : Inner x y := by
  unfold go1 at h
  split at h
  · cases h; exact .alloc x j _ _ ‹_›
  · cases h; exact .read x j _ _ _ ‹_›
  · cases h; exact .write x j _ _ _ _ ‹_›
  · cases h; exact .finish x j _ _ ‹_›
  · split at h
    · cases h; exact .unwind x j _ _ ‹_› ‹_›
    · cases h
  · cases h

theorem Steps.trans {A : Cmd → Prop} {x y z : Conc α S} (h : Steps P kec A x y)
    (h' : Steps P kec A y z) : Steps P kec A x z := by
  induction h' with
  | refl => exact h
  | snoc _ h1 ih => exact .snoc ih h1

theorem act_sound {A : Cmd → Prop} {x y : Conc α S} {a : Act} (h : x.act P kec a = some y)
    (hA : ∀ j c, a = .call j c → A c) : Steps P kec A x y := by
  cases a with
  | call j c =>
    simp only [act] at h
    split at h
    · rename_i hj
      split at h
      · rename_i hc
        cases h
        rw [Bool.and_eq_true, List.all_eq_true, List.all_eq_true] at hc
        refine .snoc (.refl x) (.call x j c hj (hA j c rfl) (fun i hi => by simpa using hc.1 i hi) ?_)
        intro k d p hk
        exact (Cmd.compatible_iff d c).1 (hc.2 _ (List.mem_of_getElem? hk))
      · cases h
    · cases h
  | go j n =>
    simp only [act, Option.some.injEq] at h
    subst h
    clear hA
    induction n generalizing x with
    | zero => exact .refl x
    | succ n ih =>
      show Steps P kec A x (match x.go1 j with
        | none => x
        | some y => _)
      split
      · exact .refl x
      · rename_i y hy
        exact (Steps.snoc (.refl x) (.inner (go1_sound hy))).trans ih

/-- What `sched` does is possible. -/
theorem sched_sound {A : Cmd → Prop} {as : List Act} {x y : Conc α S}
    (h : x.sched P kec as = some y) (hA : ∀ j c, .call j c ∈ as → A c) : Steps P kec A x y := by
  induction as generalizing x with
  | nil => cases h; exact .refl _
  | cons a as ih =>
    simp only [sched, Option.bind_eq_some_iff] at h
    obtain ⟨z, h1, h2⟩ := h
    exact (act_sound h1 fun j c e => hA j c (by simp [e])).trans
      (ih h2 fun j c hm => hA j c (by simp [hm]))

end Conc
end EthTrie
