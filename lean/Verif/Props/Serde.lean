import Verif.Serde.Exact
import Verif.Serde.Live
import Verif.Props.Deref

/-!
# Properties C56 and C57: serialised tries
-/

namespace EthTrie

open Spec KMap LNode Nibbles
open SData (fields2 ofBytes ofHash ofNibbles)

section
variable {K : Kind} {M M₀ : Mode} {P P₀ : Profile} {kec : Bytes → H256} {s s₀ : Sys K.Ann K.State}
  {t t₀ : Trie K.Ann} {σ : K.State} {d : SData}

theorem Kind.get_none (hc : K.cells = false) (σ : K.State) (a : K.Ann) : K.get σ a = none := by
  cases K with
  | standard => rfl
  | hashed => cases hc

/-- The hash of a trie that represents something is the one in its cell or else the right one. -/
theorem RepN.hashOf {w : (Kind.laws kec K).W} {l : LNode} (h : RepN (L := Kind.laws kec K) kec w t l) :
    (t.rootHash P kec ((Kind.laws kec K).st w)).map (·.1) =
      match K.trieKind.cacheGet t.ann ((Kind.laws kec K).st w) with
      | some x => .ok x
      | none => .ok (l.rootHash kec) := by
  obtain ⟨x, w', g1, _, rfl⟩ := run_rootHash (L := Kind.laws kec K) (P := P) h
  rw [g1]
  simp only [Except.map]
  cases K.trieKind.cacheGet t.ann ((Kind.laws kec K).st w) <;> rfl

theorem RepN.bare_eq {w w' : (Kind.laws kec K).W} {l : LNode}
    (h : RepN (L := Kind.laws kec K) kec w t l) (h' : RepN (L := Kind.laws kec K) kec w' t₀ l) :
    t.bare = t₀.bare := by
  exact repN_bare_inj (repN_bare h) (repN_bare h')

/-! ## C56 -/

/-- C56: a serialised trie is read back, in any program, as an equal trie with the same caches. -/
theorem C56_roundtrip (h₀ : Live K M₀ P₀ kec s₀) (ht : t₀ ∈ s₀.hs) (h : Live K M P kec s) :
    ∃ d t σ, (t₀.ser K.cells).run s₀.state = .ok (d, s₀.state) ∧
      (Trie.de K.cells d).run s.state = .ok (.ok t, σ) ∧ t.bare = t₀.bare ∧
      (t.ser K.cells).run σ = .ok (d, σ) ∧
      (t.rootHash P kec σ).map (·.1) = (t₀.rootHash P kec s₀.state).map (·.1) ∧
      (M₀ = M → Live K M P kec ⟨σ, s.hs ++ [t]⟩) := by
  obtain ⟨w, p, Z, h1, _⟩ := h.inv.ex
  have hsound := h₀.inv.sound (P := P) ht
  obtain ⟨w₀, p₀, Z₀, i1, _⟩ := h₀.inv.ex
  rw [i1.hs, List.mem_map] at ht
  obtain ⟨a, ha, rfl⟩ := ht
  have hok := i1.ok a ha
  obtain ⟨t, w', g1, g2, g3, g4, g5, g6, g7, g8⟩ := de_run (K := K) hok.rep.sound
    (fun hc => Kind.get_none hc _ _) w
  have hbare : t.bare = a.1.bare := g4.bare_eq hok.rep
  refine ⟨_, t, (Kind.laws kec K).st w', ser_run _ _, ?_, hbare, ?_, ?_, ?_⟩
  · rw [h1.state, i1.state]; exact g1
  · rw [ser_run, i1.state]
    exact congrArg (fun d => Except.ok (d, _)) g8
  · rw [g4.hashOf, i1.state, hok.rep.hashOf, show K.trieKind.cacheGet t.ann _ = _ from g7]
  · rintro rfl
    rw [i1.state] at hsound
    refine h.load (by rw [h1.state]; exact g1) ⟨g4.formed hok.bound hok.ext, g4.innerRight, fun hK => ?_⟩
    have hr := hsound.root hK
    have g7' : K.get ((Kind.laws kec K).st w') t.ann = K.get ((Kind.laws kec K).st w₀) a.1.ann := g7
    have href : t.refer P kec = a.1.refer P kec := by
      have e1 : t.Plain kec := by rw [Trie.Plain, g4.plain]; exact repN_bare g4
      have e2 : a.1.Plain kec := by rw [Trie.Plain, hok.rep.plain]; exact repN_bare hok.rep
      rw [e1.refer, e2.refer, g4.plain, hok.rep.plain]
    cases M₀ with
    | any => trivial
    | noEmptySubset => exact g7'.trans hr
    | noClone => intro x hx; rw [href]; exact hr x (g7' ▸ hx)

example (K : Kind) (P : Profile) : ∃ d t σ, ((caseT K P 0).ser K.cells).run (caseS K P).state = .ok (d, (caseS K P).state) ∧
    (Trie.de K.cells d).run (caseS K P).state = .ok (.ok t, σ) ∧ t.bare = (caseT K P 0).bare ∧
    (t.ser K.cells).run σ = .ok (d, σ) ∧
    (t.rootHash P kec0 σ).map (·.1) = ((caseT K P 0).rootHash P kec0 (caseS K P).state).map (·.1) ∧
    (Mode.noEmptySubset = Mode.noEmptySubset → Live K .noEmptySubset P kec0 ⟨σ, (caseS K P).hs ++ [t]⟩) :=
  C56_roundtrip (caseLive K P) (caseMem K P (by decide)) (caseLive K P)

/-- C56: `StandardTrie`s are read back as they were. -/
theorem C56_standard {P₀ : Profile} {kec : Bytes → H256} {s₀ : Sys Kind.standard.Ann Kind.standard.State}
    {t₀ : Trie Kind.standard.Ann} (h₀ : Live .standard M₀ P₀ kec s₀) (ht : t₀ ∈ s₀.hs) :
    ∃ d, (t₀.ser false).run s₀.state = .ok (d, s₀.state) ∧
      (Trie.de false d).run s₀.state = .ok (.ok t₀, s₀.state) := by
  obtain ⟨d, t, σ, h1, h2, h3, _⟩ := C56_roundtrip h₀ ht h₀
  have e : ∀ t : Trie Unit, t.bare = t := by
    intro t
    induction t with
    | branch a cs v ih => exact congrArg (fun f => Trie.branch () f v) (funext ih)
    | ext a n c ih => exact congrArg (Trie.ext () n) ih
    | _ => rfl
  refine ⟨d, h1, ?_⟩
  rw [show t₀ = t from (e t₀).symm.trans (h3.symm.trans (e t))]
  exact h2

/-- C56: what is written stands for the trie and the contents of its caches, for every trie. -/
theorem C56_means (ht : t.Counts) : ∃ d, (t.ser K.cells).run σ = .ok (d, σ) ∧
    (t.caches (K.get σ)).ReadFrom K.cells d := by
  refine ⟨_, ser_run t σ, _, ?_, nodeFrom_data (fun hc => Kind.get_none hc σ) ht⟩
  rw [ann_caches]
  exact wrapFrom_data (fun hc => Kind.get_none hc σ _) _

/-- C56: every trie, whether well-formed or not, is read back in every state, with its caches. -/
theorem C56_any (ht : t.Counts) (σ' : K.State) : ∃ d t' σ'', (t.ser K.cells).run σ = .ok (d, σ) ∧
    (Trie.de K.cells d).run σ' = .ok (.ok t', σ'') ∧
    t'.caches (K.get σ'') = t.caches (K.get σ) := by
  obtain ⟨d, h1, h2⟩ := C56_means (σ := σ) ht
  obtain ⟨t', σ'', h3, h4⟩ := (de_exact d σ' _).2 h2
  exact ⟨d, t', σ'', h1, h3, h4⟩

/-- The trie that is read from data at the start of a program, and the state then. -/
def readAs (K : Kind) (d : SData) : Option (Trie K.Ann × K.State) :=
  match (Trie.de K.cells d).run K.init with
  | .ok (.ok t, σ) => some (t, σ)
  | _ => none

/-- Serialise a trie of a program and read it back, for examples. -/
def Kind.reload (K : Kind) (i : Nat) (s : Sys K.Ann K.State) : Option (Sys K.Ann K.State) := do
  let t ← s.hs[i]?
  let (d, σ) ← ((t.ser K.cells).run s.state).toOption
  let (r, σ) ← ((Trie.de K.cells d).run σ).toOption
  let t ← r.toOption
  return ⟨σ, s.hs ++ [t]⟩

/-- A program with a serialised trie in the middle, for examples. -/
def Kind.obsReload (K : Kind) (P : Profile) (kec : Bytes → H256) (cs : List Cmd) (i : Nat)
    (cs' : List Cmd) : Option (List Obs) := do
  let (s, _) ← (K.run P kec cs).toOption
  let s ← K.reload i s
  let (_, os) ← (s.run P kec cs').toOption
  return os

/-- A trie with all kinds of nodes, whose inner hashes are cached. -/
def serdeProg : List Cmd := [.fromIter [([1, 2, 3], .val (List.replicate 40 7)),
  ([1, 2, 4], .val [9]), ([1, 3], .hash (Vector.replicate 32 5))], .hash 0]

example : ∀ K : Kind, ∀ P : Profile, K.obsReload P kec0 serdeProg 0
    [.eq 0 1, .hash 0, .hash 1, .get 1 [1, 2, 4], .insert 1 [5] (.val (List.replicate 40 8)), .eq 0 1,
      .hash 0, .hash 1] =
    some [.bool true, .root (Vector.replicate 32 35), .root (Vector.replicate 32 35), .val (some [9]),
      .unit, .bool false, .root (Vector.replicate 32 35), .root (Vector.replicate 32 83)] := by
  intro K ⟨P⟩; cases K <;> cases P <;> decide +kernel

/-! ## C57 -/

/-- C57: reading data never panics, whatever the data are, and the cells there are keep their contents. -/
theorem C57_total (d : SData) (σ : K.State) :
    ∃ r σ', (Trie.de K.cells d : Prog K.Ann _).run σ = .ok (r, σ') ∧ KeepS K σ σ' := harmless_de _ d σ

example : ((Trie.de true (fields2 "node" (.variant "Leaf" .unit) "hash" .none) :
    Prog Kind.hashed.Ann _).run Kind.hashed.init).map (fun r => r.1.toOption.isNone) = .ok true := by decide +kernel

/-- C57: reading data, with whatever result, changes neither the hash nor the serialised form of any
trie of the program. -/
theorem C57_others (h : Live K M P₀ kec s) (ht : t ∈ s.hs) {r : Except DeError (Trie K.Ann)}
    (hd : (Trie.de K.cells d).run s.state = .ok (r, σ)) :
    (t.rootHash P kec σ).map (·.1) = (t.rootHash P kec s.state).map (·.1) ∧
    ((t.ser K.cells).run σ).map (·.1) = ((t.ser K.cells).run s.state).map (·.1) := by
  obtain ⟨w, p, Z, h1, _⟩ := h.inv.ex
  obtain ⟨r', σ', e1, e2⟩ := harmless_de (K := K) K.cells d s.state
  rw [hd] at e1
  cases e1
  rw [h1.state] at e2 ⊢
  obtain ⟨w', rfl, g2, g3⟩ := exists_world e2
  rw [h1.hs, List.mem_map] at ht
  obtain ⟨a, ha, rfl⟩ := ht
  have hok := h1.ok a ha
  constructor
  · rw [(hok.rep.omono g2).hashOf, hok.rep.hashOf, g3 _ _ hok.slot]
  · rw [ser_run, ser_run]
    simp only [Except.map, Trie.data]
    rw [hok.rep.nodeData_keep g3, g3 _ _ hok.slot]

/-- C57 for data that are read as a sound trie: the program goes on as if the trie had been built by
calls; for instance, the hashes of all its proper sub-tries are right.  Missing: other data, see
`C57_forged` and `C57_alias`. -/
theorem C57_partial (h : Live K M P kec s) (hd : (Trie.de K.cells d).run s.state = .ok (.ok t, σ))
    (hv : t.Sound K M P kec σ) :
    Live K M P kec ⟨σ, s.hs ++ [t]⟩ ∧ t.Plain kec ∧
    ∀ q u, t.NodeAt q u → q ≠ [] →
      (u.rootHash P kec σ).map (·.1) = (u.bare.rootHash P kec ()).map (·.1) := by
  have h' := h.load hd hv
  have hi : (⟨σ, s.hs ++ [t]⟩ : Sys K.Ann K.State).hs[s.hs.length]? = some t := by simp
  exact ⟨h', h'.node hi (.here t), fun q u hu hq => C52_hash h' hi hu hq⟩

/-- C57: data that say nothing about hashes and that are well-formed are read as a sound trie. -/
theorem C57_nohash (hn : ∀ q u, t.NodeAt q u → K.get σ u.ann = none) (hf : t.Formed 127) :
    t.Sound K M P kec σ := by
  refine ⟨hf, fun q u hu _ x hx => ?_, fun _ => ?_⟩
  · rw [hn q u hu] at hx; cases hx
  · have := hn _ t (.here t)
    cases M with
    | any => trivial
    | noEmptySubset => exact this
    | noClone => intro x hx; rw [this] at hx; cases hx

theorem Prog.andThen_assoc {α β γ δ : Type} (p : Prog α (Except DeError β))
    (f : β → Prog α (Except DeError γ)) (g : γ → Prog α (Except DeError δ)) :
    (p.andThen f).andThen g = p.andThen fun x => (f x).andThen g := by
  induction p with
  | ret r => cases r <;> rfl
  | panic e => rfl
  | alloc k ih => exact congrArg Prog.alloc (funext ih)
  | read a k ih => exact congrArg (Prog.read a) (funext ih)
  | write a v k ih => exact congrArg (Prog.write a v) ih

/-- C57: exactly which data are read, as which trie and with which caches.  The right-hand side does not
depend on the state. -/
theorem C57_exact (d : SData) (σ : K.State) (u : Trie (Option H256)) :
    (∃ t σ', (Trie.de K.cells d).run σ = .ok (.ok t, σ') ∧ t.caches (K.get σ') = u) ↔
      u.ReadFrom K.cells d := de_exact d σ u

/-- C57: a wrapper without hash is read like one whose hash is `None`. -/
theorem C57_optional {α : Type} (node : SData) :
    (Trie.de true (.struct 1 (fun _ => "node") fun _ => node) : Prog α _) =
      Trie.de true (fields2 "node" node "hash" .none) := by
  unfold Trie.de fields2
  rw [deWrap, deWrap, if_pos rfl, if_pos rfl]
  have e1 : List.finRange 1 = [0] := rfl
  have e2 : List.finRange 2 = [0, 1] := rfl
  have h1 : (1 : Fin 2) ≠ 0 := by decide
  have h2 : "hash" ≠ "node" := by decide
  rw [e1, e2]
  simp only [visit2, if_true, if_neg h1, if_neg h2, deCell, andThen_ok, Prog.andThen_assoc]
  rfl

end

section
variable {M M₀ : Mode} {P P₀ : Profile} {kec : Bytes → H256} {s s₀ : Sys Kind.hashed.Ann Kind.hashed.State}
  {t₀ : Trie Kind.hashed.Ann}

example : ∀ P : Profile, ((readAs .hashed (fields2 "node" (.variant "Leaf" (fields2 "value"
    (ofBytes [1]) "nibbles" (fields2 "packed" (.word 0x12) "count" (.num 2)))) "hash"
    (.some (.digest (Vector.replicate 32 99))))).map fun (t, σ) =>
      ((t.rootHash P kec0 σ).map (·.1), (t.bare.rootHash P kec0 ()).map (·.1), t.get P ⟨2, 0x12⟩)) =
    some (.ok (Vector.replicate 32 99), .ok (Vector.replicate 32 5), .ok (some [1])) := by
  intro ⟨P⟩; cases P <;> decide +kernel

/-- C57 fails: whatever hash one puts into the serialised form of a trie is returned by `hash` of the
trie that is read; apart from this the tries are equal. -/
theorem C57_forged (h₀ : Live .hashed M₀ P₀ kec s₀) (ht : t₀ ∈ s₀.hs) (h : Live .hashed M P kec s)
    (x : H256) : ∃ node o, ∃ (t : Trie Kind.hashed.Ann) (σ : Kind.hashed.State),
    (t₀.ser true).run s₀.state = .ok (fields2 "node" node "hash" (ofHash o), s₀.state) ∧
    (Trie.de true (fields2 "node" node "hash" (.some (.digest x)))).run s.state = .ok (.ok t, σ) ∧
    t.bare = t₀.bare ∧ (t.rootHash P kec σ).map (·.1) = .ok x := by
  obtain ⟨w, p, Z, h1, _⟩ := h.inv.ex
  obtain ⟨w₀, p₀, Z₀, i1, _⟩ := h₀.inv.ex
  rw [i1.hs, List.mem_map] at ht
  obtain ⟨a, ha, rfl⟩ := ht
  have hok := i1.ok a ha
  obtain ⟨t, w', g1, _, _, g4, _, _, g7, _⟩ := de_run_with (K := .hashed) hok.rep.sound
    (o := some x) (fun hc => by cases hc) w
  refine ⟨_, _, t, (Kind.laws kec .hashed).st w', ser_run _ _, ?_, g4.bare_eq hok.rep, ?_⟩
  · rw [h1.state, i1.state]; exact g1
  · rw [g4.hashOf, show Kind.hashed.trieKind.cacheGet t.ann _ = some x from g7]

/-- C57 fails for every hash function: there are data that are read as a trie whose hash is wrong. -/
theorem C57_false (P : Profile) (kec : Bytes → H256) :
    ¬ ∀ (d : SData) (t : Trie Kind.hashed.Ann) (σ : Kind.hashed.State),
      (Trie.de true d).run Kind.hashed.start.state = .ok (.ok t, σ) →
      (t.rootHash P kec σ).map (·.1) = (t.bare.rootHash P kec ()).map (·.1) := by
  intro hall
  have h₀ : Live .hashed .any P kec ⟨(Kind.hashed.trieKind.alloc Kind.hashed.start.state).2,
      [.empty (Kind.hashed.trieKind.alloc Kind.hashed.start.state).1]⟩ :=
    .nodes (c := .call .new) .start trivial trivial trivial rfl
  have key : ∀ x, .ok x = ((Trie.empty ()).rootHash P kec ()).map (·.1) := by
    intro x
    obtain ⟨node, o, t, σ, _, g2, g3, g4⟩ := C57_forged (P := P) h₀ (List.mem_singleton.2 rfl)
      (Live.start (M := .any) (P := P)) x
    rw [← g4, hall _ t σ g2, g3]
    rfl
  have := (key (Vector.replicate 32 0)).trans (key (Vector.replicate 32 1)).symm
  revert this
  decide

end

/-- The serialised form of a wrapper without a hash. -/
def wrapAs (K : Kind) (node : SData) : SData := wrapData K.cells none node

/-- The serialised form of a leaf. -/
def leafAs (K : Kind) (n : Nibbles) (v : Bytes) : SData :=
  wrapAs K (.variant "Leaf" (fields2 "nibbles" (ofNibbles n) "value" (ofBytes v)))

/-- The serialised form of an extension. -/
def extAs (K : Kind) (n : Nibbles) (c : SData) : SData :=
  wrapAs K (.variant "Extension" (fields2 "nibbles" (ofNibbles n) "child" c))

theorem de_wrap {K : Kind} {name : String} {d : SData} {σ σ' : K.State} {node : K.Ann → Trie K.Ann}
    (h : (deNode K.cells (.variant name d)).run σ = .ok (.ok node, σ')) :
    (Trie.de K.cells (wrapAs K (.variant name d))).run σ =
      .ok (.ok (node (K.trieKind.alloc σ').1), (K.trieKind.alloc σ').2) := by
  unfold Trie.de wrapAs
  rw [andThen_run _ _ (deWrap_run (o := none) h), ite_self]
  rfl

theorem de_leaf (K : Kind) {n : Nibbles} (h : n.count < 2 ^ 64) (v : Bytes) (σ : K.State) :
    (Trie.de K.cells (leafAs K n v)).run σ =
      .ok (.ok (.leaf (K.trieKind.alloc σ).1 n v), (K.trieKind.alloc σ).2) := by
  refine de_wrap (node := fun a => .leaf a n v) ?_
  have := visit2_run (α := K.Ann) (s := σ) (a := "nibbles") (b := "value") (by decide) (ofNibbles n)
    (ofBytes v) (fun d => deNibbles d) (fun d => .ret (deBytes d)) (by rw [deNibbles_ofNibbles h]; rfl)
    (by rw [deBytes_ofBytes]; rfl) rfl
  show (deNode K.cells (.variant _ (.struct _ _ _))).run _ = _
  rw [deNode, deVariant, if_neg (by decide), if_neg (by decide), if_pos rfl, andThen_run _ _ this]
  rfl

theorem de_ext (K : Kind) {n : Nibbles} (h : n.count < 2 ^ 64) {c : SData} {t : Trie K.Ann}
    {σ σ' : K.State} (hc : (Trie.de K.cells c).run σ = .ok (.ok t, σ')) :
    (Trie.de K.cells (extAs K n c)).run σ =
      .ok (.ok (.ext (K.trieKind.alloc σ').1 n t), (K.trieKind.alloc σ').2) := by
  refine de_wrap (node := fun a => .ext a n t) ?_
  have := visit2_run (s := σ) (a := "nibbles") (b := "child") (by decide) (ofNibbles n) c
    (fun d => deNibbles d) (fun d => (deWrap K.cells d).andThen fun r => r.finish)
    (by rw [deNibbles_ofNibbles h]; rfl) hc rfl
  show (deNode K.cells (.variant _ (.struct _ _ _))).run _ = _
  rw [deNode, deVariant, if_neg (by decide), if_pos rfl]
  exact (andThen_run _ _ this).trans rfl

theorem alloc_none (K : Kind) (σ : K.State) :
    K.trieKind.cacheGet (K.trieKind.alloc σ).1 (K.trieKind.alloc σ).2 = none := by
  cases K with
  | standard => rfl
  | hashed => exact upd_same _ _ _

theorem hash_leaf (K : Kind) (P : Profile) (kec : Bytes → H256) (n : Nibbles) (v : Bytes) (σ : K.State) :
    ((Trie.leaf (K.trieKind.alloc σ).1 n v).rootHash P kec (K.trieKind.alloc σ).2).map (·.1) =
      (n.toHexPrefixEncoding P true).map fun hp =>
        (hashIfLarge kec (rlpList [rlpValue hp, rlpValue v])).toH256 kec := by
  show ((Prog.read _ _ : Prog K.Ann H256).run _).map _ = _
  simp only [Prog.run, Trie.ann, alloc_none, hashTrie, encodeNode]
  cases n.toHexPrefixEncoding P true <;> rfl

/-- C57 fails: `Nibbles` are read without any check.  The leaves with the nibble 2 and with the nibble
2 and further bits are read as different tries with the same hash, for both trie types and whatever the
hash function is. -/
theorem C57_alias (K : Kind) (P : Profile) (kec : Bytes → H256) (v : Bytes) : ∃ t₁ t₂ : Trie K.Ann,
    ∃ σ₁ σ₂ : K.State, readAs K (leafAs K ⟨1, 2⟩ v) = some (t₁, σ₁) ∧
    readAs K (leafAs K ⟨1, 0x12⟩ v) = some (t₂, σ₂) ∧ t₁.beq t₂ = false ∧
    (t₁.rootHash P kec σ₁).map (·.1) = (t₂.rootHash P kec σ₂).map (·.1) := by
  refine ⟨_, _, _, _, by rw [readAs, de_leaf K (by decide)], by rw [readAs, de_leaf K (by decide)], ?_, ?_⟩
  · simp [Trie.beq]
  · have e : (⟨1, 2⟩ : Nibbles).toHexPrefixEncoding P true =
        (⟨1, 0x12⟩ : Nibbles).toHexPrefixEncoding P true := by
      obtain ⟨P⟩ := P
      cases P <;> decide +kernel
    rw [hash_leaf, hash_leaf, e]

/-- C57 fails: there are data that are read as a trie whose `hash` panics, for both trie types and
build profiles. -/
theorem C57_panics (K : Kind) (P : Profile) (kec : Bytes → H256) (v : Bytes) : ∃ t σ e,
    readAs K (leafAs K ⟨130, 0⟩ v) = some (t, σ) ∧ (t.rootHash P kec σ).map (·.1) = .error e := by
  have : ∃ e, (⟨130, 0⟩ : Nibbles).toHexPrefixEncoding P true = .error e := by
    obtain ⟨P⟩ := P
    cases P
    · exact ⟨.indexOutOfBounds, by decide +kernel⟩
    · exact ⟨.overflow, by decide +kernel⟩
  obtain ⟨e, he⟩ := this
  refine ⟨_, _, e, by rw [readAs, de_leaf K (by decide)], ?_⟩
  rw [hash_leaf, he]
  rfl

/-- C57 fails: the shape of the tries is not checked.  An extension above a leaf is read as a trie that
has the same items as a leaf, but is not equal to it. -/
theorem C57_shape (K : Kind) (P : Profile) : ∃ t₁ t₂ : Trie K.Ann, ∃ σ₁ σ₂ : K.State,
    readAs K (extAs K ⟨1, 1⟩ (leafAs K ⟨1, 2⟩ [7])) = some (t₁, σ₁) ∧
    readAs K (leafAs K ⟨2, 0x12⟩ [7]) = some (t₂, σ₂) ∧ t₁.beq t₂ = false ∧
    t₁.items P = .ok [(⟨2, 0x12⟩, .val [7])] ∧ t₂.items P = .ok [(⟨2, 0x12⟩, .val [7])] := by
  refine ⟨_, _, _, _, by rw [readAs, de_ext K (by decide) (de_leaf K (by decide) _ _)],
    by rw [readAs, de_leaf K (by decide)], rfl, ?_, ?_⟩
  · obtain ⟨P⟩ := P
    cases K <;> cases P <;> decide +kernel
  · obtain ⟨P⟩ := P
    cases K <;> cases P <;> decide +kernel

/-- The data of `C57_exact`: the fields may come in any order, unknown ones are ignored. -/
example : (Trie.leaf none ⟨1, 2⟩ [7]).ReadFrom true (.struct 2 (fun i => if i = 0 then "note" else "node")
    fun i => if i = 0 then .unit else .variant "Leaf" (fields2 "value" (ofBytes [7]) "nibbles"
      (fields2 "packed" (.word 2) "count" (.num 1)))) := by
  have h1 : ∀ {a b : String} (x y : SData), a ≠ b →
      Field (fun i : Fin 2 => if i = 0 then a else b) (fun i => if i = 0 then x else y) b y :=
    fun x y h => field_second h x y
  refine ⟨_, ⟨_, _, _, rfl, h1 _ _ (by decide), .inr ⟨fun j => ?_, rfl⟩⟩, _, _, _, rfl,
    ⟨_, h1 _ _ (by decide), _, _, _, rfl, h1 _ _ (by decide), by decide, field_first (by decide) _ _⟩,
    field_first (by decide) _ _⟩
  split <;> decide

/-- The error for data that are read at the start of a program. -/
def readError (K : Kind) (d : SData) : Option DeError :=
  match (Trie.de K.cells d : Prog K.Ann (Except DeError (Trie K.Ann))).run K.init with
  | .ok (.error e, _) => some e
  | _ => none

/-- A number that is no byte, an array of 15 children, a field that occurs twice and a field that is
missing are errors. -/
example : ∀ K : Kind, [
      .variant "Leaf" (fields2 "value" (.seq 1 fun _ => .num 256) "nibbles" (ofNibbles ⟨1, 2⟩)),
      .variant "Branch" (fields2 "value" (ofBytes []) "children"
        (.seq 15 fun _ => wrapAs K (.variant "Empty" .unit))),
      .variant "Leaf" (.struct 3 (fun i => if i = 1 then "nibbles" else "value") fun i =>
        if i = 1 then ofNibbles ⟨1, 2⟩ else ofBytes [7]),
      .variant "Leaf" (.struct 1 (fun _ => "nibbles") fun _ => ofNibbles ⟨1, 2⟩)].map
      (fun d => readError K (wrapAs K d)) =
    [some .invalidValue, some .invalidLength, some .duplicateField, some .missingField] := by
  intro K; cases K <;> decide +kernel

section
variable {K : Kind} {β γ : Type} {a b : String} {m : Nat} {name : Fin m → String} {σ : K.State}
  {pa : Fin m → Prog K.Ann (Except DeError β)} {pb : Fin m → Prog K.Ann (Except DeError γ)}

theorem visit2_none : ∀ (l : List (Fin m)), (∀ i ∈ l, name i ≠ a ∧ name i ≠ b) → ∀ x y,
    visit2 a pa b pb name l x y = .ret (.ok (x, y))
  | [], _, _, _ => rfl
  | i :: l, h, x, y => by
    unfold visit2
    rw [if_neg (h i List.mem_cons_self).1, if_neg (h i List.mem_cons_self).2]
    exact visit2_none l (fun j hj => h j (List.mem_cons_of_mem _ hj)) x y

theorem visit2_only_first {i₀ : Fin m} {x : β} (hn : name i₀ = a) (hp : pa i₀ = .ret (.ok x)) :
    ∀ (l : List (Fin m)), l.Nodup → i₀ ∈ l → (∀ i ∈ l, i ≠ i₀ → name i ≠ a ∧ name i ≠ b) →
    visit2 a pa b pb name l none none = .ret (.ok (some x, none))
  | [], _, h, _ => by cases h
  | i :: l, hd, h, ho => by
    by_cases hi : i = i₀
    · subst hi
      rw [visit2, if_pos hn]
      simp only [hp, andThen_ok]
      exact visit2_none l (fun j hj => ho j (List.mem_cons_of_mem _ hj)
        fun e => (List.nodup_cons.1 hd).1 (e ▸ hj)) _ _
    · rw [visit2, if_neg (ho i List.mem_cons_self hi).1, if_neg (ho i List.mem_cons_self hi).2]
      exact visit2_only_first hn hp l (List.nodup_cons.1 hd).2
        ((List.mem_cons.1 h).resolve_left fun e => hi e.symm)
        fun j hj => ho j (List.mem_cons_of_mem _ hj)

theorem visit2_only_second {i₀ : Fin m} {y : γ} (hab : b ≠ a) (hn : name i₀ = b) (hp : pb i₀ = .ret (.ok y)) :
    ∀ (l : List (Fin m)), l.Nodup → i₀ ∈ l → (∀ i ∈ l, i ≠ i₀ → name i ≠ a ∧ name i ≠ b) →
    visit2 a pa b pb name l none none = .ret (.ok (none, some y))
  | [], _, h, _ => by cases h
  | i :: l, hd, h, ho => by
    by_cases hi : i = i₀
    · subst hi
      rw [visit2, if_neg (hn ▸ hab), if_pos hn]
      simp only [hp, andThen_ok]
      exact visit2_none l (fun j hj => ho j (List.mem_cons_of_mem _ hj)
        fun e => (List.nodup_cons.1 hd).1 (e ▸ hj)) _ _
    · rw [visit2, if_neg (ho i List.mem_cons_self hi).1, if_neg (ho i List.mem_cons_self hi).2]
      exact visit2_only_second hab hn hp l (List.nodup_cons.1 hd).2
        ((List.mem_cons.1 h).resolve_left fun e => hi e.symm)
        fun j hj => ho j (List.mem_cons_of_mem _ hj)

end

/-- An error of a node is the error of its wrapper. -/
theorem de_wrap_error {K : Kind} {kind : String} {d : SData} {σ : K.State} {e : DeError}
    (h : deVariant (α := K.Ann) K.cells kind d = .ret (.error e)) :
    (Trie.de (α := K.Ann) K.cells (wrapAs K (.variant kind d))).run σ = .ok (.error e, σ) := by
  cases K with
  | standard =>
    show ((deWrap false (.variant kind d)).andThen _).run σ = _
    rw [deWrap, if_neg (by decide), show deVariant (α := Kind.standard.Ann) false kind d = _ from h]
    rfl
  | hashed =>
    show ((deWrap true (.struct 2 _ _)).andThen _).run σ = _
    rw [deWrap, if_pos rfl]
    have e2 : List.finRange 2 = [0, 1] := rfl
    rw [e2]
    simp only [visit2, if_true]
    rw [deNode, show deVariant (α := Kind.hashed.Ann) true kind d = _ from h]
    rfl

section
variable {K : Kind} {m : Nat} {name : Fin m → String} {val : Fin m → SData} {i₀ : Fin m} {n : Nibbles}
  {v : Bytes} {σ : K.State}

/-- C57: a node with its key but without its child or value is rejected because a field is missing,
whatever other fields there are. -/
theorem C57_missing {kind other : String}
    (hk : kind = "Extension" ∧ other = "child" ∨ kind = "Leaf" ∧ other = "value")
    (hn : name i₀ = "nibbles") (hv : val i₀ = ofNibbles n) (hc : n.count < 2 ^ 64)
    (ho : ∀ i, i ≠ i₀ → name i ≠ "nibbles" ∧ name i ≠ other) :
    (Trie.de (α := K.Ann) K.cells (wrapAs K (.variant kind (.struct m name val)))).run σ =
      .ok (.error .missingField, σ) := by
  refine de_wrap_error ?_
  have hp : (deNibbles (val i₀) : Prog K.Ann _) = .ret (.ok n) := by rw [hv, deNibbles_ofNibbles hc]
  obtain ⟨rfl, rfl⟩ | ⟨rfl, rfl⟩ := hk
  · rw [deVariant, if_neg (by decide), if_pos rfl,
      visit2_only_first hn hp _ (List.nodup_finRange m) (List.mem_finRange i₀) fun i _ => ho i]
    rfl
  · rw [deVariant, if_neg (by decide), if_neg (by decide), if_pos rfl,
      visit2_only_first hn hp _ (List.nodup_finRange m) (List.mem_finRange i₀) fun i _ => ho i]
    rfl

/-- C57: a node with its value but without its children or key is rejected because a field is missing. -/
theorem C57_missing_value {kind other : String}
    (hk : kind = "Branch" ∧ other = "children" ∨ kind = "Leaf" ∧ other = "nibbles")
    (hn : name i₀ = "value") (hv : val i₀ = ofBytes v)
    (ho : ∀ i, i ≠ i₀ → name i ≠ other ∧ name i ≠ "value") :
    (Trie.de (α := K.Ann) K.cells (wrapAs K (.variant kind (.struct m name val)))).run σ =
      .ok (.error .missingField, σ) := by
  refine de_wrap_error ?_
  have hp : (.ret (deBytes (val i₀)) : Prog K.Ann _) = .ret (.ok v) := by rw [hv, deBytes_ofBytes]
  obtain ⟨rfl, rfl⟩ | ⟨rfl, rfl⟩ := hk
  · rw [deVariant, if_pos rfl, visit2_only_second (by decide) hn hp _ (List.nodup_finRange m)
      (List.mem_finRange i₀) fun i _ => ho i]
    rfl
  · rw [deVariant, if_neg (by decide), if_neg (by decide), if_pos rfl, visit2_only_second (by decide) hn hp _
      (List.nodup_finRange m) (List.mem_finRange i₀) fun i _ => ho i]
    rfl

/-- C57: a node without any of its fields is rejected because a field is missing. -/
theorem C57_missing_both {kind x y : String}
    (hk : (kind, x, y) ∈ [("Branch", "children", "value"), ("Extension", "nibbles", "child"),
      ("Leaf", "nibbles", "value")]) (ho : ∀ i, name i ≠ x ∧ name i ≠ y) :
    (Trie.de (α := K.Ann) K.cells (wrapAs K (.variant kind (.struct m name val)))).run σ =
      .ok (.error .missingField, σ) := by
  refine de_wrap_error ?_
  simp only [List.mem_cons, List.not_mem_nil, or_false, Prod.mk.injEq] at hk
  obtain ⟨rfl, rfl, rfl⟩ | ⟨rfl, rfl, rfl⟩ | ⟨rfl, rfl, rfl⟩ := hk
  · rw [deVariant, if_pos rfl, visit2_none _ fun i _ => ho i]
    rfl
  · rw [deVariant, if_neg (by decide), if_pos rfl, visit2_none _ fun i _ => ho i]
    rfl
  · rw [deVariant, if_neg (by decide), if_neg (by decide), if_pos rfl, visit2_none _ fun i _ => ho i]
    rfl

end

/-- A leaf with its key and an unknown field. -/
example (K : Kind) (σ : K.State) : (Trie.de (α := K.Ann) K.cells (wrapAs K (.variant "Leaf"
    (fields2 "note" .unit "nibbles" (ofNibbles ⟨1, 2⟩))))).run σ = .ok (.error .missingField, σ) :=
  C57_missing (i₀ := 1) (.inr ⟨rfl, rfl⟩) rfl rfl (by decide) (by decide)

/-- A branch with a value and an unknown field. -/
example (K : Kind) (σ : K.State) : (Trie.de (α := K.Ann) K.cells (wrapAs K (.variant "Branch"
    (fields2 "value" (ofBytes [7]) "nibbles" (ofNibbles ⟨1, 2⟩))))).run σ = .ok (.error .missingField, σ) :=
  C57_missing_value (i₀ := 0) (.inl ⟨rfl, rfl⟩) rfl rfl (by decide)

end EthTrie
