import Verif.Sys.Catch
import Verif.Conc.Main

/-!
# States that programs reach

`Live` states are reached by

* any calls with keys of at most 127 nibbles, whether the calls are supported or not, including calls
  that panic if the panic is caught,
* access to the nodes of tries and nodes that are put together (`Verif/Sys/Nodes.lean`), as long as the
  new tries are well-formed,
* reading serialised tries that are sound, and reading any data and dropping the result,
* dropping tries,
* several threads that make calls at the same time (`Verif/Conc/Calls.lean`), if the calls keep the
  cells of roots empty or right (`Mode.Safe`); the states meant are those in which all threads are
  outside of calls,

as far as the mode permits.  In these states the functions of the model compute what the
functions on list-keyed tries compute on `Trie.plain`, including panics.  For `hash` and for subsets for
no keys this needs the cache cell of the root to be empty or right (`Sys.FreshAt`), which it always is
in the modes that are `Mode.Safe`.
-/

namespace EthTrie

open Spec KMap LNode Nibbles

/-- The states that can be reached in the ways that are permitted. -/
inductive Live (K : Kind) : Mode → Profile → (Bytes → H256) → Sys K.Ann K.State → Prop
  | start {M : Mode} {P : Profile} {kec : Bytes → H256} : Live K M P kec K.start
  /-- a call -/
  | step {M : Mode} {P : Profile} {kec : Bytes → H256} {s s' : Sys K.Ann K.State} {c : Cmd} {o : Obs} (h : Live K M P kec s)
      (hs : c.Short) (hp : permitted K M c)
      (he : s.exec P kec c = .ok (s', o)) : Live K M P kec s'
  /-- a call that panics -/
  | caught {M : Mode} {P : Profile} {kec : Bytes → H256} {s : Sys K.Ann K.State} {c : Cmd} {e : Panic} (h : Live K M P kec s)
      (hs : c.Short) (hp : permitted K M c) (hc : s.Catchable K M c)
      (he : s.exec P kec c = .error e) : Live K M P kec (s.afterPanic P kec c)
  /-- a call of `extend` with an iterator that panics -/
  | cut {M : Mode} {P : Profile} {kec : Bytes → H256} {s : Sys K.Ann K.State} {i : Nat} {xs : List (Key × ValOrHash)} (h : Live K M P kec s)
      (hs : ∀ x ∈ xs, x.1.length ≤ 127) (hc : s.Catchable K M (.extend i xs)) :
      Live K M P kec (s.afterPanic P kec (.extend i xs))
  /-- access to nodes -/
  | nodes {M : Mode} {P : Profile} {kec : Bytes → H256} {s s' : Sys K.Ann K.State} {c : NCmd} {o : Obs} (h : Live K M P kec s)
      (hs : c.Short) (hp : permittedN K M c) (hw : s.WellMade c)
      (he : s.execN P kec c = .ok (s', o)) : Live K M P kec s'
  /-- reading a sound trie -/
  | load {M : Mode} {P : Profile} {kec : Bytes → H256} {s : Sys K.Ann K.State} {d : SData} {t : Trie K.Ann} {σ : K.State} (h : Live K M P kec s)
      (hd : (Trie.de K.cells d).run s.state = .ok (.ok t, σ)) (hv : t.Sound K M P kec σ) :
      Live K M P kec ⟨σ, s.hs ++ [t]⟩
  /-- reading anything and dropping the result -/
  | tried {M : Mode} {P : Profile} {kec : Bytes → H256} {s : Sys K.Ann K.State} {d : SData} {r : Except DeError (Trie K.Ann)} {σ : K.State}
      (h : Live K M P kec s) (hd : (Trie.de K.cells d).run s.state = .ok (r, σ)) :
      Live K M P kec ⟨σ, s.hs⟩
  /-- dropping tries -/
  | drop {M : Mode} {P : Profile} {kec : Bytes → H256} {s : Sys K.Ann K.State} {hs : List (Trie K.Ann)} (h : Live K M P kec s)
      (hz : hs.Sublist s.hs) : Live K M P kec ⟨s.state, hs⟩
  /-- several threads -/
  | threads {M M' : Mode} {P : Profile} {kec : Bytes → H256} {s : Sys K.Ann K.State} {n : Nat}
      {x : Conc K.Ann K.State} (h : Live K M' P kec s) (hM : M'.Safe) (hM' : M = M' ∨ M = .any)
      (hx : x.From K M' P kec s n) (hi : ∀ t ∈ x.threads, t = none) : Live K M P kec x.sys

variable {K : Kind} {M : Mode} {P : Profile} {kec : Bytes → H256} {s : Sys K.Ann K.State}

theorem Live.inv (h : Live K M P kec s) : LiveInv K M kec s := by
  induction h with
  | start => exact .start
  | step h hs hp he ih => exact ih.step hs hp he
  | caught h hs hp hc he ih => exact ih.caught hs hp hc he
  | cut h hs hc ih => exact ih.extendUntil hs hc
  | nodes h hs hp hw he ih => exact ih.stepN hs hp hw he
  | load h hd hv ih => exact ih.load hd hv
  | tried h hd ih => exact ih.tried hd
  | drop h hz ih => exact ih.drop hz
  | threads h hM hM' hx hi ih =>
    have := hM
    have ⟨⟨_, _, _, hc⟩, _⟩ := hx.inv ih
    rcases hM' with rfl | rfl
    · exact hc.live
    · exact hc.live.any

/-- In safe modes cells are empty or right. -/
theorem Live.freshAt [M.Safe] (h : Live K M P kec s) (i : Nat) : s.FreshAt kec i := h.inv.freshAt i

theorem Live.freshFor [M.Safe] (h : Live K M P kec s) (c : Cmd) : s.FreshFor kec c :=
  freshFor_of h.freshAt c

/-- A call that reads no stale cell does on the handles what the call on list-keyed tries does. -/
theorem Live.exec (h : Live K M P kec s) {c : Cmd} (hs : c.Short) (hf : s.FreshFor kec c) :
    plainRes (s.exec P kec c) = plainExec P kec s.plains c := h.inv.plain hs hf

variable {t u : Trie K.Ann} {i j : Nat}

theorem plains_get (hi : s.hs[i]? = some t) : s.plains[i]? = some t.plain := by
  rw [Sys.plains, List.getElem?_map, hi]; rfl

theorem exec_on {s : Sys K.Ann K.State} {f : Trie K.Ann → R (Sys K.Ann K.State × Obs)}
    (hi : s.hs[i]? = some t) : s.on i f = f t := by
  unfold Sys.on; rw [hi]

theorem plain_on {ls : List LNode} {l : LNode} {f : LNode → R (List LNode × Obs)}
    (hi : ls[i]? = some l) : onPlain ls i f = f l := by
  unfold onPlain; rw [hi]

theorem Live.get (h : Live K M P kec s) (hi : s.hs[i]? = some t) {k : Key} (hk : k.length ≤ 127) :
    t.get P (ofList k) = t.plain.get P k := by
  have := h.exec (c := .get i k) hk trivial
  simp only [Sys.exec, plainExec, exec_on hi, plain_on (plains_get hi)] at this
  revert this
  cases t.get P (ofList k) <;> cases t.plain.get P k <;>
    simp [plainRes, Except.map]

theorem Live.items (h : Live K M P kec s) (hi : s.hs[i]? = some t) :
    t.items P = t.plain.itemsA.map packItems := by
  have := h.exec (c := .items i) trivial trivial
  simp only [Sys.exec, plainExec, exec_on hi, plain_on (plains_get hi)] at this
  revert this
  cases t.items P <;> cases t.plain.itemsA <;> simp [plainRes, Except.map]

theorem Live.items_short (h : Live K M P kec s) (hi : s.hs[i]? = some t) (hb : t.plain.Bound 64) :
    t.items P = .ok (packItems (t.plain.items [])) := by
  rw [h.items hi, LNode.itemsA_eq hb]; rfl

theorem Live.items_ok (h : Live K M P kec s) (hi : s.hs[i]? = some t) {J : List Item}
    (hJ : t.items P = .ok J) : t.items P = .ok (packItems (t.plain.items [])) := by
  refine h.items_short hi ?_
  by_contra hb
  rw [h.items hi, LNode.itemsA, if_neg hb] at hJ; cases hJ

theorem Live.beq (h : Live K M P kec s) (hi : s.hs[i]? = some t) (hj : s.hs[j]? = some u) :
    t.beq u = true ↔ t.plain = u.plain := by
  have := h.exec (c := .eq i j) trivial trivial
  simp only [Sys.exec, plainExec, exec_on hi, exec_on hj, plain_on (plains_get hi),
    plain_on (plains_get hj)] at this
  simp only [plainRes, Except.map, R_pure, Except.ok.injEq, Prod.mk.injEq, Obs.bool.injEq,
    true_and] at this
  rw [this]; simp

theorem set_inj {α : Type} {l : List α} {i : Nat} {a b x : α} (hi : l[i]? = some x)
    (h : l.set i a = l.set i b) : a = b := by
  have hlt : i < l.length := (List.getElem?_eq_some_iff.1 hi).1
  have := congrArg (fun l => l[i]?) h
  simpa [List.getElem?_set, hlt] using this

theorem Live.insert (h : Live K M P kec s) (hi : s.hs[i]? = some t) {k : Key} (hk : k.length ≤ 127)
    (v : ValOrHash) :
    (t.insert P (ofList k) v s.state).map (fun r => r.1.plain) = t.plain.insert k v := by
  have := h.exec (c := .insert i k v) hk trivial
  simp only [Sys.exec, plainExec, exec_on hi, plain_on (plains_get hi)] at this
  revert this
  cases t.insert P (ofList k) v s.state with
  | error e =>
    cases t.plain.insert k v with
    | error e' => simp [plainRes, Except.map]
    | ok l => simp [plainRes, Except.map]
  | ok r =>
    cases t.plain.insert k v with
    | error e' => simp [plainRes, Except.map]
    | ok l =>
      simp only [plainRes, R_bind_ok, R_pure, Except.map, Sys.plains, List.map_set, Except.ok.injEq,
        Prod.mk.injEq, and_true]
      exact fun e => set_inj (plains_get hi) e

theorem Live.extend (h : Live K M P kec s) (hi : s.hs[i]? = some t) {xs : List (Key × ValOrHash)}
    (hx : ∀ x ∈ xs, x.1.length ≤ 127) :
    (t.extend P (packEntries xs) s.state).map (fun r => r.1.plain) = PSys.extendL t.plain xs := by
  have := h.exec (c := .extend i xs) hx trivial
  simp only [Sys.exec, plainExec, exec_on hi, plain_on (plains_get hi)] at this
  revert this
  cases t.extend P (packEntries xs) s.state with
  | error e =>
    cases PSys.extendL t.plain xs with
    | error e' => simp [plainRes, Except.map]
    | ok l => simp [plainRes, Except.map]
  | ok r =>
    cases PSys.extendL t.plain xs with
    | error e' => simp [plainRes, Except.map]
    | ok l =>
      simp only [plainRes, R_bind_ok, R_pure, Except.map, Sys.plains, List.map_set, Except.ok.injEq,
        Prod.mk.injEq, and_true]
      exact fun e => set_inj (plains_get hi) e

theorem Live.delete (h : Live K M P kec s) (hi : s.hs[i]? = some t) {k : Key}
    (hk : k.length ≤ 127) :
    (t.delete P (ofList k) s.state).map (fun r => (r.1.1.plain, r.1.2)) = t.plain.deleteA k := by
  have := h.exec (c := .delete i k) hk trivial
  simp only [Sys.exec, plainExec, exec_on hi, plain_on (plains_get hi)] at this
  revert this
  cases t.delete P (ofList k) s.state with
  | error e =>
    cases t.plain.deleteA k with
    | error e' => simp [plainRes, Except.map]
    | ok l => simp [plainRes, Except.map]
  | ok r =>
    obtain ⟨⟨t', o⟩, st⟩ := r
    cases t.plain.deleteA k with
    | error e' => simp [plainRes, Except.map]
    | ok l =>
      obtain ⟨l, o'⟩ := l
      simp only [plainRes, R_bind_ok, R_pure, Except.map, Sys.plains, List.map_set, Except.ok.injEq,
        Prod.mk.injEq, Obs.val.injEq]
      exact fun e => ⟨set_inj (plains_get hi) e.1, e.2⟩

theorem Live.delete_short (h : Live K M P kec s) (hi : s.hs[i]? = some t) {k : Key}
    (hk : k.length ≤ 127) (hb : t.plain.Bound 64) :
    (t.delete P (ofList k) s.state).map (fun r => (r.1.1.plain, r.1.2)) = t.plain.delete k := by
  rw [h.delete hi hk, LNode.deleteA_eq hb]

theorem Live.hash_fresh (h : Live K M P kec s) (hi : s.hs[i]? = some t) (hf : s.FreshAt kec i) :
    (t.rootHash P kec s.state).map (·.1) = .ok (t.plain.rootHash kec) := by
  have := h.exec (c := .hash i) trivial hf
  simp only [Sys.exec, plainExec, exec_on hi, plain_on (plains_get hi)] at this
  revert this
  cases t.rootHash P kec s.state <;> simp [plainRes, Except.map]

theorem Live.hash [M.Safe] (h : Live K M P kec s) (hi : s.hs[i]? = some t) :
    (t.rootHash P kec s.state).map (·.1) = .ok (t.plain.rootHash kec) := h.hash_fresh hi (h.freshAt i)

theorem Live.subset_fresh (h : Live K M P kec s) (hi : s.hs[i]? = some t) {ks : List Key}
    (hk : ∀ k ∈ ks, k.length ≤ 127) (hf : ks = [] → s.FreshAt kec i) :
    (createTrieSubset P kec t (ks.map ofList) s.state).map
      (fun r => r.1.map Trie.plain) =
    ((LTracked.new t.plain).markAll P ks).map fun r => match r with
      | .error k => .error (.unexpectedKey (ofList k))
      | .ok tr => .ok (tr.subset kec) := by
  have := h.exec (c := .subset i ks) hk hf
  simp only [Sys.exec, plainExec, exec_on hi, plain_on (plains_get hi)] at this
  revert this
  rcases createTrieSubset P kec t (ks.map ofList) s.state with e | ⟨r | r, st⟩ <;>
  rcases (LTracked.new t.plain).markAll P ks with e' | (r' | r') <;>
    simp [plainRes, Except.map, Sys.plains]

theorem Live.subset [M.Safe] (h : Live K M P kec s) (hi : s.hs[i]? = some t) {ks : List Key}
    (hk : ∀ k ∈ ks, k.length ≤ 127) :
    (createTrieSubset P kec t (ks.map ofList) s.state).map
      (fun r => r.1.map Trie.plain) =
    ((LTracked.new t.plain).markAll P ks).map fun r => match r with
      | .error k => .error (.unexpectedKey (ofList k))
      | .ok tr => .ok (tr.subset kec) := h.subset_fresh hi hk fun _ => h.freshAt i

theorem Live.subsets_fresh (h : Live K M P kec s) (hi : s.hs[i]? = some t) {kss : List (List Key)}
    (hk : ∀ ks ∈ kss, ∀ k ∈ ks, k.length ≤ 127) (hf : [] ∈ kss → s.FreshAt kec i) :
    (createTrieSubsets P kec t (kss.map fun ks => ks.map ofList) s.state).map
      (fun r => r.1.map fun ts => ts.map Trie.plain) =
    (PSys.subsetsL P kec (LTracked.new t.plain) kss).map fun r => match r with
      | .error k => .error (.unexpectedKey (ofList k))
      | .ok ls => .ok ls := by
  have := h.exec (c := .subsets i kss) hk hf
  simp only [Sys.exec, plainExec, exec_on hi, plain_on (plains_get hi)] at this
  revert this
  generalize createTrieSubsets P kec t (kss.map fun ks => ks.map ofList) s.state = x
  rcases x with e | ⟨r | r, st⟩ <;>
  rcases PSys.subsetsL P kec (LTracked.new t.plain) kss with e' | (r' | r') <;>
    simp [plainRes, Except.map, Sys.plains]

theorem Live.subsets [M.Safe] (h : Live K M P kec s) (hi : s.hs[i]? = some t)
    {kss : List (List Key)} (hk : ∀ ks ∈ kss, ∀ k ∈ ks, k.length ≤ 127) :
    (createTrieSubsets P kec t (kss.map fun ks => ks.map ofList) s.state).map
      (fun r => r.1.map fun ts => ts.map Trie.plain) =
    (PSys.subsetsL P kec (LTracked.new t.plain) kss).map fun r => match r with
      | .error k => .error (.unexpectedKey (ofList k))
      | .ok ls => .ok ls := h.subsets_fresh hi hk fun _ => h.freshAt i

/-- Facts about the shape of live tries. -/
theorem Live.shape (h : Live K M P kec s) (ht : t ∈ s.hs) : t.plain.Bound 127 ∧ t.plain.ExtOK := by
  obtain ⟨w, p, Z, h1, _⟩ := h.inv.ex
  rw [h1.hs, List.mem_map] at ht
  obtain ⟨a, ha, rfl⟩ := ht
  have hok := h1.ok a ha
  rw [hok.rep.plain]
  exact ⟨hok.bound, hok.ext⟩

theorem Live.run (h : Live K M P kec s) : ∀ (cs : List Cmd), (∀ c ∈ cs, c.Short) →
    (∀ c ∈ cs, permitted K M c) → ∀ {s' : Sys K.Ann K.State} {os : List Obs},
    s.run P kec cs = .ok (s', os) → Live K M P kec s' := by
  intro cs
  induction cs generalizing s with
  | nil => intro _ _ s' os e; cases e; exact h
  | cons c cs ih =>
    intro hs hp s' os e
    simp only [Sys.run, R_bind_eq_ok] at e
    obtain ⟨⟨s₁, o⟩, h1, ⟨s₂, os'⟩, h2, h3⟩ := e
    cases h3
    exact ih (.step h (hs c (by simp)) (hp c (by simp)) h1) (fun c hc => hs c (by simp [hc]))
      (fun c hc => hp c (by simp [hc])) h2

theorem Sys.run_append {α S : Type} [TrieKind α S] (s : Sys α S) (cs ds : List Cmd) :
    s.run P kec (cs ++ ds) = s.run P kec cs >>= fun r =>
      (r.1.run P kec ds).map fun r' => (r'.1, r.2 ++ r'.2) := by
  induction cs generalizing s with
  | nil =>
    simp only [List.nil_append, Sys.run, R_bind_ok]
    cases s.run P kec ds <;> rfl
  | cons c cs ih =>
    simp only [List.cons_append, Sys.run]
    cases s.exec P kec c with
    | error e => rfl
    | ok r =>
      simp only [R_bind_ok, ih]
      cases r.1.run P kec cs with
      | error e => rfl
      | ok r' =>
        simp only [R_bind_ok, R_pure]
        cases r'.1.run P kec ds <;> rfl

end EthTrie
