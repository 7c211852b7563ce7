import Verif.Props.LightDelete

/-!
# Property C90: programs that look at what calls return

The programs of C88 and C89 are lists of calls.  Here each call may depend on what the calls before it
returned, as when the root hash of the storage of an account is written into the trie of all accounts.
-/

namespace EthTrie

open Spec KMap Nibbles

/-- A program that decides on each call by what the calls before it returned. -/
inductive Client where
  | stop
  | step (c : LCall) (next : Obs → Client)

namespace Client

/-- What the calls return in the crate (`src/partial_trie.rs:41-109, src/trie_subsets.rs:206-223`). -/
def play {α S : Type} [TrieKind α S] (P : Profile) (kec : Bytes → H256) (s : Sys α S) :
    Client → R (List Obs)
  | .stop => .ok []
  | .step c next => do
    let (s', o) ← s.exec P kec c.cmd
    let os ← play P kec s' (next o)
    return o :: os

/-- What they return on tables, where a subset is a copy of the whole table. -/
def playOn (kec : Bytes → H256) (ts : List (Table H256)) : Client → List Obs
  | .stop => []
  | .step c next =>
    (c.asClone.on hashKeys kec ts).1 ::
      playOn kec (c.asClone.on hashKeys kec ts).2 (next (c.asClone.on hashKeys kec ts).1)

/-- The calls that are made use allowed keys only. -/
def OK (kec : Bytes → H256) (ts : List (Table H256)) (ps : List Perm) : Client → Prop
  | .stop => True
  | .step c next => c.OKD ts ps ∧
      OK kec (c.asClone.on hashKeys kec ts).2 (c.perms ps) (next (c.asClone.on hashKeys kec ts).1)

/-- The program with clones in place of subsets. -/
def asClone : Client → Client
  | .stop => .stop
  | .step c next => .step (.call c.asClone) fun o => (next o).asClone

end Client

/-- What the calls of a program return. -/
def Kind.play (K : Kind) (P : Profile) (kec : Bytes → H256) (c : Client) : R (List Obs) := c.play P kec K.start

/-! ## The proof -/

section
variable {kec : Bytes → H256}

theorem Client.playOn_asClone : ∀ (c : Client) (ts : List (Table H256)),
    c.asClone.playOn kec ts = c.playOn kec ts
  | .stop, _ => rfl
  | .step c next, ts => by
    simp only [Client.asClone, Client.playOn, LCall.asClone]
    rw [Client.playOn_asClone]

theorem KCall.perms_none (c : KCall H256) {ps : List Perm} (h : ∀ p ∈ ps, p = none) :
    ∀ p ∈ (LCall.call c).perms ps, p = none := by
  intro p hp
  cases c with
  | new | fromIter =>
    simp only [LCall.perms, List.mem_append, List.mem_singleton] at hp
    exact hp.elim (h p) id
  | clone i =>
    simp only [LCall.perms] at hp
    split at hp
    · exact h p hp
    · rename_i p' e
      rcases List.mem_append.1 hp with hp | hp
      · exact h p hp
      · rw [List.mem_singleton.1 hp]
        exact h p' (List.mem_of_getElem? e)
  | _ => exact h p hp

theorem KCall.ok_none (c : KCall H256) {ps : List Perm} (h : ∀ p ∈ ps, p = none) : (LCall.call c).OK ps := by
  have h' : ∀ (i : Nat) p, ps[i]? = some p → p = none := fun i p e => h p (List.mem_of_getElem? e)
  cases c with
  | get i a | insert i a v => intro p e; rw [h' i p e]; trivial
  | delete i a => exact h' i
  | extend i xs => intro p e x _; rw [h' i p e]; trivial
  | items i => exact h' i
  | eq i j => exact fun p e => e.elim (h' i p) (h' j p)
  | _ => trivial

theorem Client.ok_asClone : ∀ (c : Client) (ts : List (Table H256)) (ps : List Perm), (∀ p ∈ ps, p = none) →
    c.asClone.OK kec ts ps
  | .stop, _, _, _ => trivial
  | .step c next, _, _, h =>
    ⟨.inl (c.asClone.ok_none h), Client.ok_asClone (next _) _ _ (c.asClone.perms_none h)⟩

theorem Client.play_eq {K : Kind} {P : Profile} : ∀ (c : Client) {s : Sys K.Ann K.State}
    {zs : List (Table H256 × Perm)}, Reached K .noEmptySubset P kec s →
    List.Forall₂ (Stands kec) zs s.contents → c.OK kec (zs.map (·.1)) (zs.map (·.2)) →
    c.play P kec s = .ok (c.playOn kec (zs.map (·.1)))
  | .stop, _, _, _, _, _ => rfl
  | .step c next, s, zs, hr, hz, hc => by
    obtain ⟨s₁, zs', h1, h2, h3, h4, h5⟩ := c.stepD hr hz hc.1
    have h6 := Client.play_eq (next _) h2 h3 (by rw [h4, h5]; exact hc.2)
    simp only [Client.play, h1, R_bind_ok, h6, Client.playOn, h4]
    rfl

end

/-! ## C90 -/

/-- C90: a program that uses allowed keys only, whatever it makes of what calls return, gets what sorted
tables return. -/
theorem C90_reference (K : Kind) (P : Profile) (kec : Bytes → H256) (c : Client) (hc : c.OK kec [] []) :
    K.play P kec c = .ok (c.playOn kec []) :=
  c.play_eq (.start (K := K) (P := P) (kec := kec)) (zs := []) .nil hc

/-- C90: it gets what it gets with clones in place of the subsets, for any trie types and build profiles. -/
theorem C90_clone (K K' : Kind) (P P' : Profile) (kec : Bytes → H256) (c : Client) (hc : c.OK kec [] []) :
    K.play P kec c = K'.play P' kec c.asClone := by
  rw [C90_reference K P kec c hc, C90_reference K' P' kec c.asClone (c.ok_asClone _ _ nofun),
    Client.playOn_asClone]

/-! ## Accounts and their storage -/

/-- Changes of rows: new values and removals. -/
abbrev Changes := List (H256 × Option Bytes)

/-- One change of a table. -/
def Table.change (t : Table H256) : H256 × Option Bytes → Table H256
  | (a, some v) => hashKeys.write a v t
  | (a, none) => t.remove a

/-- Changes of a table, one after the other. -/
def Table.changes (t : Table H256) : Changes → Table H256
  | [] => t
  | c :: cs => Table.changes (t.change c) cs

/-- The condition of C89 for all removals. -/
def Spared (hs : List H256) : Table H256 → Changes → Prop
  | _, [] => True
  | t, c :: cs => (c.2 = none → Spare t hs c.1) ∧ Spared hs (t.change c) cs

/-- A change of an account: the rows of its storage, the keys that the subset is made for, the changes there,
and the value of the account with a storage root, or none if the account is removed. -/
structure Touch where
  account : H256
  rows : List (H256 × Bytes)
  keys : List H256
  changes : Changes
  value : H256 → Option Bytes

/-- The subset was made for the keys that are changed, and removals meet the condition of C89. -/
structure Touch.OK (x : Touch) : Prop where
  keys : x.keys ≠ []
  mem : ∀ c ∈ x.changes, c.1 ∈ x.keys
  spared : Spared x.keys (hashKeys.writeAll [] x.rows) x.changes

/-- The storage root of an account after the change. -/
def Touch.root (kec : Bytes → H256) (x : Touch) : H256 :=
  trieRoot kec (hashKeys.entries (Table.changes (hashKeys.writeAll [] x.rows) x.changes))

/-- The changes of the accounts. -/
def stateChanges (kec : Bytes → H256) (xs : List Touch) : Changes := xs.map fun x => (x.account, x.value (x.root kec))

/-- The call for a change. -/
def changeCall (i : Nat) : H256 × Option Bytes → LCall
  | (a, some v) => .call (.insert i a v)
  | (a, none) => .call (.delete i a)

namespace Client

/-- Change rows. -/
def edits (i : Nat) : Changes → Client → Client
  | [], c => c
  | x :: xs, c => .step (changeCall i x) fun _ => edits i xs c

/-- Go on with a root hash. -/
def withRoot (f : H256 → Client) : Obs → Client
  | .root h => f h
  | _ => .stop

/-- For each account, change a subset of its storage and write the root hash of this subset to the subset of
the accounts, which is the second trie. -/
def touches : Nat → List Touch → Client
  | _, [] => .step (.call (.hash 1)) fun _ => .stop
  | n, x :: xs => .step (.call (.fromIter x.rows)) fun _ => .step (.subset n x.keys) fun _ =>
      edits (n + 1) x.changes (.step (.call (.hash (n + 1))) (withRoot fun h =>
        .step (changeCall 1 (x.account, x.value h)) fun _ => touches (n + 2) xs))

/-- The new state root from a subset of the accounts, for the keys `hs`, and subsets of their storages. -/
def block (rows : List (H256 × Bytes)) (hs : List H256) (xs : List Touch) : Client :=
  .step (.call (.fromIter rows)) fun _ => .step (.subset 0 hs) fun _ => touches 2 xs

end Client

theorem changeCall_eq (kec : Bytes → H256) {i : Nat} {ts : List (Table H256)} {ps : List Perm} {t : Table H256}
    {hs : List H256} (ht : ts[i]? = some t) (hp : ps[i]? = some (some hs)) (x : H256 × Option Bytes)
    (hx : x.1 ∈ hs) (hs' : x.2 = none → Spare t hs x.1) :
    (changeCall i x).OKD ts ps ∧ ((changeCall i x).asClone.on hashKeys kec ts).2 = ts.set i (t.change x) ∧
      (changeCall i x).perms ps = ps := by
  obtain ⟨a, _ | v⟩ := x
  · refine ⟨.inr ⟨i, a, hs, t, rfl, hp, ht, hx, hs' rfl⟩, ?_, rfl⟩
    simp only [changeCall, LCall.asClone, KCall.on, ht, Table.change]
  · refine ⟨.inl ?_, ?_, rfl⟩
    · intro p e
      rw [hp] at e; cases e
      exact hx
    · simp only [changeCall, LCall.asClone, KCall.on, ht, Table.change]

theorem edits_eq (kec : Bytes → H256) (i : Nat) (c : Client) {ps : List Perm} {hs : List H256}
    (hp : ps[i]? = some (some hs)) : ∀ (xs : Changes) (ts : List (Table H256)) (t : Table H256),
    ts[i]? = some t → (∀ x ∈ xs, x.1 ∈ hs) → Spared hs t xs →
    (c.OK kec (ts.set i (t.changes xs)) ps → (Client.edits i xs c).OK kec ts ps) ∧
      ∃ os, (Client.edits i xs c).playOn kec ts = os ++ c.playOn kec (ts.set i (t.changes xs))
  | [], ts, t, ht, _, _ => by
    simp only [Table.changes, Client.edits, set_same ht]
    exact ⟨id, [], rfl⟩
  | x :: xs, ts, t, ht, hw, hsp => by
    have hlt : i < ts.length := (List.getElem?_eq_some_iff.1 ht).1
    obtain ⟨h1, os, h2⟩ := edits_eq kec i c hp xs (ts.set i (t.change x)) (t.change x)
      (by simp [hlt]) (fun x hx => hw x (List.mem_cons_of_mem _ hx)) hsp.2
    simp only [List.set_set] at h1 h2
    obtain ⟨g1, g2, g3⟩ := changeCall_eq kec ht hp x (hw x List.mem_cons_self) hsp.1
    refine ⟨fun h => ⟨g1, ?_⟩, ((changeCall i x).asClone.on hashKeys kec ts).1 :: os, ?_⟩
    · rw [g2, g3]
      exact h1 h
    · simp only [Client.edits, Client.playOn, g2, h2, Table.changes, List.cons_append]

theorem touches_eq (kec : Bytes → H256) {hs : List H256} : ∀ (xs : List Touch) (ts : List (Table H256))
    (ps : List Perm) (t : Table H256), ps.length = ts.length → ts[1]? = some t → ps[1]? = some (some hs) →
    (∀ x ∈ xs, x.account ∈ hs ∧ x.OK) →
    Spared hs t (stateChanges kec xs) →
    (Client.touches ts.length xs).OK kec ts ps ∧ ∃ os, (Client.touches ts.length xs).playOn kec ts = os ++
      [.root (trieRoot kec (hashKeys.entries (t.changes (stateChanges kec xs))))]
  | [], ts, ps, t, _, ht, _, _, _ => by
    refine ⟨⟨.inl trivial, trivial⟩, [], ?_⟩
    simp [Client.touches, Client.playOn, LCall.asClone, KCall.on, ht, Table.changes, stateChanges]
  | x :: xs, ts, ps, t, hl, ht, hp, hx, hsp => by
    have hlt : 1 < ts.length := (List.getElem?_eq_some_iff.1 ht).1
    obtain ⟨hx1, hx2, hx4, hx3⟩ := hx x List.mem_cons_self
    have hxs := fun y hy => hx y (List.mem_cons_of_mem _ hy)
    generalize hT : hashKeys.writeAll [] x.rows = T at hx3
    generalize hU : T.changes x.changes = U
    have hroot : x.root kec = trieRoot kec (hashKeys.entries U) := by rw [Touch.root, hT, hU]
    have hpn : (ps ++ [none] ++ [some x.keys])[ts.length + 1]? = some (some x.keys) := by
      rw [← hl]; simp
    have htn : (ts ++ [T] ++ [T])[ts.length + 1]? = some T := by simp
    have hset : (ts ++ [T] ++ [T]).set (ts.length + 1) U = ts ++ [T] ++ [U] := by simp
    have e1 : (ts ++ [T] ++ [U])[1]? = some t := by
      rw [List.append_assoc, List.getElem?_append_left hlt, ht]
    have e2 : (ps ++ [none] ++ [some x.keys])[1]? = some (some hs) := by
      rw [List.append_assoc, List.getElem?_append_left (hl ▸ hlt), hp]
    have e3 : (ts ++ [T] ++ [U])[ts.length + 1]? = some U := by simp
    have e4 : (ts ++ [T])[ts.length]? = some T := by simp
    have e5 : (ps ++ [none])[ts.length]? = some none := by rw [← hl]; simp
    obtain ⟨h1, os, h2⟩ := touches_eq kec (hs := hs) xs ((ts ++ [T] ++ [U]).set 1
      (t.change (x.account, x.value (x.root kec)))) (ps ++ [none] ++ [some x.keys])
      (t.change (x.account, x.value (x.root kec))) (by simp [hl]) (by simp) e2 hxs hsp.2
    simp only [List.length_set, List.length_append, List.length_singleton, Nat.add_assoc, Nat.reduceAdd] at h1 h2
    obtain ⟨k1, k2, k3⟩ := changeCall_eq kec e1 e2 (x.account, x.value (x.root kec)) hx1 hsp.1
    generalize hc : Client.step (.call (.hash (ts.length + 1))) (Client.withRoot fun h =>
        .step (changeCall 1 (x.account, x.value h)) fun _ => Client.touches (ts.length + 2) xs) = c
    have hcok : c.OK kec (ts ++ [T] ++ [U]) (ps ++ [none] ++ [some x.keys]) := by
      subst hc
      refine ⟨.inl trivial, ?_⟩
      simp only [LCall.asClone, KCall.on, e3, Client.withRoot, LCall.perms, ← hroot]
      refine ⟨k1, ?_⟩
      rw [k2, k3]
      exact h1
    have hcplay : ∃ os, c.playOn kec (ts ++ [T] ++ [U]) = os ++ [.root (trieRoot kec (hashKeys.entries
        (t.changes (stateChanges kec (x :: xs)))))] := by
      subst hc
      refine ⟨.root (x.root kec) ::
        ((changeCall 1 (x.account, x.value (x.root kec))).asClone.on hashKeys kec (ts ++ [T] ++ [U])).1 :: os, ?_⟩
      rw [Client.playOn]
      simp only [LCall.asClone, KCall.on, e3, Client.withRoot, ← hroot]
      rw [Client.playOn, k2, h2]
      rfl
    obtain ⟨h3, os', h4⟩ := edits_eq kec (ts.length + 1) c hpn x.changes _ T htn
      hx4 hx3
    rw [hU, hset] at h3 h4
    obtain ⟨os'', h5⟩ := hcplay
    refine ⟨?_, .unit :: .unit :: (os' ++ os''), ?_⟩
    · simp only [Client.touches, hc, Client.OK, LCall.asClone, KCall.on, hT, e4, LCall.perms, e5]
      refine ⟨.inl trivial, .inl ⟨hx2, ?_⟩, h3 hcok⟩
      intro p e a _
      rw [e5] at e; cases e
      trivial
    · simp only [Client.touches, hc, Client.playOn, LCall.asClone, KCall.on, hT, e4]
      rw [h4, h5]
      simp

/-- C90: the storage roots of any accounts after any changes, computed from subsets of their storages, and
written to a subset of the accounts, give the state root of the full data.  Removals of rows and of accounts
meet the condition of C89. -/
theorem C90_state (K : Kind) (P : Profile) (kec : Bytes → H256) (rows : List (H256 × Bytes)) (hs : List H256)
    (xs : List Touch) (h1 : hs ≠ [])
    (h2 : ∀ x ∈ xs, x.account ∈ hs ∧ x.OK)
    (h3 : Spared hs (hashKeys.writeAll [] rows) (stateChanges kec xs)) :
    ∃ os, K.play P kec (Client.block rows hs xs) = .ok (os ++ [.root (trieRoot kec (hashKeys.entries
      (Table.changes (hashKeys.writeAll [] rows) (stateChanges kec xs))))]) := by
  obtain ⟨h4, os, h5⟩ := touches_eq kec (hs := hs) xs
    [hashKeys.writeAll [] rows, hashKeys.writeAll [] rows] [none, some hs] _ rfl rfl rfl h2 h3
  refine ⟨.unit :: .unit :: os, ?_⟩
  rw [C90_reference]
  · exact congrArg Except.ok (congrArg (fun z => Obs.unit :: Obs.unit :: z) h5)
  · refine ⟨.inl trivial, .inl ⟨h1, ?_⟩, h4⟩
    intro p e a _
    cases e
    trivial

/-- Without removals nothing is asked of the keys. -/
theorem Spared.of_writes {hs : List H256} : ∀ {t : Table H256} {cs : Changes}, (∀ c ∈ cs, c.2 ≠ none) →
    Spared hs t cs
  | _, [], _ => trivial
  | _, c :: _, h => ⟨fun e => absurd e (h c List.mem_cons_self), Spared.of_writes fun d hd => h d (List.mem_cons_of_mem _ hd)⟩

/-- Two accounts are written and one is removed.  One of them had no storage; one loses a row of its
storage, and another row remains for which the subset was made, too. -/
def blockCase : List Touch :=
  [⟨hA, [(hA, [1]), (hC, [2])], [hA, hC], [(hA, none)], fun h => some (7 :: h.toList)⟩,
   ⟨hB, [], [hA], [(hA, some (List.replicate 40 5))], fun h => some (8 :: h.toList)⟩,
   ⟨hC, [(hA, [1])], [hA], [(hA, some [2])], fun _ => none⟩]

def blockRows : List (H256 × Bytes) := [(hA, [1]), (hC, [3])]

theorem blockCase_ok : (∀ x ∈ blockCase, x.account ∈ [hA, hB, hC] ∧ x.OK) ∧
    Spared [hA, hB, hC] (hashKeys.writeAll [] blockRows) (stateChanges kec0 blockCase) := by
  refine ⟨?_, nofun, nofun, fun _ => .of_all ?_ _, trivial⟩
  · simp only [blockCase, List.mem_cons, List.not_mem_nil, or_false]
    rintro x (rfl | rfl | rfl)
    · refine ⟨by simp, by simp, by simp, fun _ => .of_all ?_ _, trivial⟩
      decide +kernel
    · exact ⟨by simp, by simp, by simp, .of_writes (by simp)⟩
    · exact ⟨by simp, by simp, by simp, .of_writes (by simp)⟩
  · decide +kernel

example (K : Kind) (P : Profile) : ∃ os, K.play P kec0 (.block blockRows [hA, hB, hC] blockCase) =
    .ok (os ++ [.root (Vector.replicate 32 68)]) := by
  have h := C90_state K P kec0 blockRows [hA, hB, hC] blockCase nofun blockCase_ok.1 blockCase_ok.2
  have e : trieRoot kec0 (hashKeys.entries (Table.changes (hashKeys.writeAll [] blockRows)
      (stateChanges kec0 blockCase))) = Vector.replicate 32 68 := by decide +kernel
  rwa [e] at h

/-- The same by computation. -/
example (K : Kind) (P : Profile) : K.play P kec0 (.block blockRows [hA, hB, hC] blockCase) =
    .ok [.unit, .unit, .unit, .unit, .val (some [1]), .root (Vector.replicate 32 36), .unit, .unit, .unit, .unit,
      .root (Vector.replicate 32 77), .unit, .unit, .unit, .unit, .root (Vector.replicate 32 36), .val (some [3]),
      .root (Vector.replicate 32 68)] := by
  obtain ⟨_ | _⟩ := P <;> cases K <;> kernel_rfl

/-! ## All other calls -/

/-- As `Client`, with all calls of `Cmd`. -/
inductive Chooser where
  | stop
  | step (c : Cmd) (next : Obs → Chooser)

/-- The calls that are made, what they return, and the panic that ends them, if any. -/
def Chooser.play {α S : Type} [TrieKind α S] (P : Profile) (kec : Bytes → H256) (s : Sys α S) :
    Chooser → List (Cmd × Obs) × Option (Cmd × Panic)
  | .stop => ([], none)
  | .step c next =>
    match s.exec P kec c with
    | .error e => ([], some (c, e))
    | .ok (s', o) => ((c, o) :: (play P kec s' (next o)).1, (play P kec s' (next o)).2)

theorem Chooser.play_run {α S : Type} [TrieKind α S] (P : Profile) (kec : Bytes → H256) : ∀ (a : Chooser)
    (s : Sys α S), (∃ s', s.run P kec ((a.play P kec s).1.map (·.1)) = .ok (s', (a.play P kec s).1.map (·.2))) ∧
      ∀ c e, (a.play P kec s).2 = some (c, e) →
        s.run P kec ((a.play P kec s).1.map (·.1) ++ [c]) = .error e
  | .stop, s => ⟨⟨s, rfl⟩, nofun⟩
  | .step c next, s => by
    simp only [Chooser.play]
    cases h : s.exec P kec c with
    | error e =>
      refine ⟨⟨s, rfl⟩, fun c' e' h' => ?_⟩
      cases h'
      simp only [List.map_nil, List.nil_append, Sys.run, h]
      rfl
    | ok r =>
      obtain ⟨s', o⟩ := r
      obtain ⟨⟨s'', h1⟩, h2⟩ := Chooser.play_run P kec (next o) s'
      refine ⟨⟨s'', ?_⟩, fun c' e h' => ?_⟩
      · simp only [List.map_cons, Sys.run, h, R_bind_ok, h1]
        rfl
      · simp only [List.map_cons, List.cons_append, Sys.run, h, R_bind_ok, h2 c' e h']
        rfl

/-- C90: what calls return and where they panic is, for a program that chooses its calls, what it is for the
list of the calls that it makes.  So all properties of lists of calls are properties of such programs. -/
theorem C90_lists (K : Kind) (P : Profile) (kec : Bytes → H256) (a : Chooser) :
    K.obs P kec ((a.play P kec K.start).1.map (·.1)) = .ok ((a.play P kec K.start).1.map (·.2)) ∧
      ∀ c e, (a.play P kec K.start).2 = some (c, e) →
        K.obs P kec ((a.play P kec K.start).1.map (·.1) ++ [c]) = .error e := by
  obtain ⟨⟨s', h1⟩, h2⟩ := a.play_run P kec K.start
  refine ⟨by rw [Kind.obs, Kind.run, h1]; rfl, fun c e h => ?_⟩
  rw [Kind.obs, Kind.run, h2 c e h]
  rfl

/-- A program that inserts the root hash of a trie into it, looks it up and inserts it below a
hash node, which panics. -/
def chooseCase : Chooser :=
  .step (.fromIter [([1, 2], .val [7]), ([3], .hash (Vector.replicate 32 9))]) fun _ => .step (.hash 0) fun
    | .root h => .step (.insert 0 [2, 2] (.val h.toList)) fun _ => .step (.get 0 [2, 2]) fun
      | .val (some v) => .step (.insert 0 [3, 1] (.val v)) fun _ => .stop
      | _ => .stop
    | _ => .stop

example (K : Kind) (P : Profile) : ((chooseCase.play P kec0 K.start).1.map (·.2),
      (chooseCase.play P kec0 K.start).2.map (·.2)) =
    ([.unit, .root (Vector.replicate 32 52), .unit, .val (some (List.replicate 32 52))], some .hashInsert) := by
  obtain ⟨_ | _⟩ := P <;> cases K <;> kernel_rfl

end EthTrie
