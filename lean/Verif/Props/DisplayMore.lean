import Verif.Props.Display

/-!
# Properties C49 and C50, continued: texts of types, keys and empty reports, and the query builder
-/

namespace EthTrie

open Nibbles Spec LNode

/-! ## C49 -/

/-- C49: the text of a report is empty exactly if there is no difference. -/
theorem C49_none (P : Profile) {d : Option DiffPoint} (hd : ∀ x, d = some x → x.Fits) :
    showDiff P d = .ok [] ↔ d = none := by
  constructor
  · intro h
    exact (C49_diff_injective P P (d := d) (e := none) hd (by simp)).2 h
  · rintro rfl; rfl

/-- C49: the text of a segment of a path begins with the name of its node type, which ends the text or is
followed by a bracket. -/
theorem C49_type (P : Profile) {s : PathSegment} (hs : s.Fits) :
    ∃ x, s.show P = .ok (s.type.show ++ x) ∧ (x = [] ∨ x.head? = some '(') := by
  rw [seg_ok hs]
  cases s with
  | empty => exact ⟨[], rfl, .inl rfl⟩
  | hash => exact ⟨[], rfl, .inl rfl⟩
  | branch n => exact ⟨'(' :: (showNat n ++ [')']), rfl, .inr rfl⟩
  | ext n => exact ⟨'(' :: (keyText n ++ [')']), rfl, .inr rfl⟩
  | leaf n => exact ⟨'(' :: (keyText n ++ [')']), rfl, .inr rfl⟩

/-- C49: the `Debug` text of a key shows the number of its nibbles in decimal and the nibbles in hex. -/
theorem C49_debug (P : Profile) {k : Key} (hk : k.length ≤ 128) :
    (ofList k).debug P = .ok (t!"Nibbles { count: " ++ Nat.toDigits 10 k.length ++ t!", packed: \"0x" ++
      k.map (hexChar false) ++ t!"\" }") := by
  rw [Nibbles.debug, show_ok (fits_ofList hk), ofList_count, keyText, toList_ofList hk]
  simp [R_bind_ok, R_pure, showNat]

/-- C49: the `Debug` text of a key determines it. -/
theorem C49_debug_injective (P P' : Profile) {k k' : Key} (hk : k.length ≤ 128) (hk' : k'.length ≤ 128)
    (h : (ofList k).debug P = (ofList k').debug P') : k = k' := by
  rw [C49_debug P hk, C49_debug P' hk'] at h
  have h := Except.ok.inj h
  simp only [List.append_assoc] at h
  obtain ⟨-, h⟩ := cut (c := ',') (showNat_not (by decide) k.length) (showNat_not (by decide) k'.length)
    (List.append_cancel_left h)
  have h := List.append_cancel_left (as := t!" packed: \"0x") h
  exact hex_inj (List.append_cancel_right h)

/-! ## C50 -/

/-- A call on the builder of query parameters. -/
inductive BuilderCall where
  | keyPieces (enabled : Bool)
  | nodeType (enabled : Bool)
  | specific (enabled : Bool)

/-- The effect of a call. -/
def BuilderCall.apply (p : QueryParams) : BuilderCall → QueryParams
  | .keyPieces b => p.printKeyPieces b
  | .nodeType b => p.printNodeType b
  | .specific b => p.printSpecific b

/-- The last setting of an option in a list of calls, or its default. -/
def lastSetting (f : BuilderCall → Option Bool) (default : Bool) (cs : List BuilderCall) : Bool :=
  ((cs.filterMap f).getLast?).getD default

theorem lastSetting_concat (f : BuilderCall → Option Bool) (d : Bool) (cs : List BuilderCall)
    (c : BuilderCall) : lastSetting f d (cs ++ [c]) = (f c).getD (lastSetting f d cs) := by
  unfold lastSetting
  rw [List.filterMap_append]
  cases h : f c with
  | none => simp [h]
  | some b => simp [h]

/-- C50: a query built with any sequence of calls on the builder has the given key and each option as it
was set last; key pieces and node types are on and specific values off if they were never set. -/
theorem C50_builder (cs : List BuilderCall) (k : Nibbles) :
    let q := (cs.foldl BuilderCall.apply .default).build k
    q.k = k ∧
    q.params.keyPiece = lastSetting (fun | .keyPieces b => some b | _ => none) true cs ∧
    q.params.nodeType = lastSetting (fun | .nodeType b => some b | _ => none) true cs ∧
    q.params.specific = lastSetting (fun | .specific b => some b | _ => none) false cs := by
  refine ⟨rfl, ?_⟩
  simp only [QueryParams.build]
  induction cs using List.reverseRecOn with
  | nil => exact ⟨rfl, rfl, rfl⟩
  | append_singleton cs c ih =>
    simp only [List.foldl_append, List.foldl_cons, List.foldl_nil, lastSetting_concat]
    obtain ⟨h1, h2, h3⟩ := ih
    cases c with
    | keyPieces b => exact ⟨rfl, h2, h3⟩
    | nodeType b => exact ⟨h1, rfl, h3⟩
    | specific b => exact ⟨h1, h2, rfl⟩

section

variable {K : Kind} {M : Mode} {P : Profile} {kec : Bytes → H256} {s : Sys K.Ann K.State}
  {i : Nat} {t : Trie K.Ann} {K' : Kind} {M' : Mode} {P' : Profile} {kec' : Bytes → H256}
  {s' : Sys K'.Ann K'.State} {i' : Nat} {t' : Trie K'.Ann}

theorem nodesText_plain {p : QueryParams} (h : p.specific = false)
    {xs ys : List (PathSegment × Option ExtraInfo)} (he : xs.map (·.1) = ys.map (·.1)) :
    nodesText p xs = nodesText p ys := by
  rw [← intercalate_nodes, ← intercalate_nodes]
  congr 1
  have hn : ∀ x : PathSegment × Option ExtraInfo, nodeText p x.1 x.2 = nodeText p x.1 none := by
    intro x
    have : ∀ e, showExtra p e = [] := fun e => by simp [showExtra, h]
    simp [nodeText, this]
  rw [List.map_congr_left fun x _ => hn x, List.map_congr_left (l := ys) fun x _ => hn x]
  have := congrArg (List.map fun s => nodeText p s none) he
  rw [List.map_map, List.map_map] at this
  exact this

/-- C50: the outputs of two queries made from keys are printed alike exactly if the keys, the answers
and the paths are the same; in particular the text does not depend on values or hashes in the tries. -/
theorem C50_default (h : Live K M P kec s) (hi : s.hs[i]? = some t) {k : Key} (hk : k.length ≤ 127)
    (h' : Live K' M' P' kec' s') (hi' : s'.hs[i']? = some t') {k' : Key} (hk' : k'.length ≤ 127)
    {o o' : QueryOutput} (ho : getPathFromQuery P t (.ofKey (ofList k)) = .ok o)
    (ho' : getPathFromQuery P' t' (.ofKey (ofList k')) = .ok o') :
    o.show P = o'.show P' ↔ k = k' ∧ o.out.found = o'.out.found ∧ o.out.path = o'.out.path := by
  have e : ∀ k, DebugQuery.ofKey k = QueryParams.default.build k := fun _ => rfl
  rw [e] at ho ho'
  constructor
  · intro he
    obtain ⟨h1, h2, h3, -⟩ := C50_injective h hi hk h' hi' hk' rfl rfl ho ho' he
    exact ⟨h1, h2, h3⟩
  · rintro ⟨rfl, h2, h3⟩
    obtain ⟨f, e1, e2, -⟩ := query_fits h hi hk ho
    obtain ⟨f', e1', e2', -⟩ := query_fits h' hi' hk' ho'
    rw [query_text f, query_text f', e2, e2']
    congr 1
    rw [nodesText_plain (p := .default) rfl (ys := o'.out.path.zip o'.out.extra)
      (by rw [List.map_fst_zip (by rw [f.len]), List.map_fst_zip (by rw [f'.len]), h3])]
    simp only [headerText, e1, e1', h2]

end

/-! ## Examples -/

-- C50: the same path in tries with different values.
example : ∀ K : Kind, ∀ P : Profile,
    queryText K P [.fromIter [([1, 5], .val [7]), ([2, 3], .val [8])]] [2, 3] .default =
      queryText K P [.fromIter [([1, 5], .val [9]), ([2, 3], .val [4])]] [2, 3] .default ∧
    queryText K P [.fromIter [([1, 5], .val [7]), ([2, 3], .val [8])]] [2, 3]
        (QueryParams.default.printSpecific true) ≠
      queryText K P [.fromIter [([1, 5], .val [9]), ([2, 3], .val [4])]] [2, 3]
        (QueryParams.default.printSpecific true) := by
  intro K ⟨P⟩; cases K <;> cases P <;> decide +kernel

-- C50: the last call counts.
example : ([.nodeType false, .specific true, .nodeType true, .keyPieces false].foldl BuilderCall.apply
    .default) = ⟨false, true, true⟩ := rfl

end EthTrie
