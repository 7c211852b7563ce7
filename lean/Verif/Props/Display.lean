import Verif.Debug.Text
import Verif.Props.Query
import Verif.Props.Diff

/-!
# Properties C49 and C50: the texts printed by the debug tools
-/

namespace EthTrie

open Nibbles Spec LNode

/-! ## Keys in nodes fit -/

section
variable {α : Type}

theorem fits_ofList {l : Key} (h : l.length ≤ 128) : (ofList l).Fits :=
  ⟨ofList_WF _, by rw [ofList_count]; exact h⟩

theorem piece_length {t : Trie α} {b : Nat} (hb : t.plain.Bound b) : (pieceOf t).toList.length ≤ b := by
  cases t with
  | ext a n c => exact hb.1
  | leaf a n v => exact hb
  | _ => exact Nat.zero_le _

theorem tour_fits {t : Trie α} {k : Key} {xs : List (Trie α × PathSegment)} {u : Trie α} {r : Key}
    (h : t.Tour k xs u r) {b : Nat} (hb : b ≤ 128) (hw : t.WFKeys) (hl : t.plain.Bound b) :
    ∀ x ∈ xs, x.2.Fits := by
  have fit : ∀ {n : Nibbles} {b}, b ≤ 128 → n.WF → n.toList.length ≤ b → n.Fits := by
    intro n b hb hw hl
    rw [toList_length] at hl
    exact ⟨hw, by omega⟩
  induction h generalizing b with
  | empty | hash => intro x hx; rw [List.mem_singleton.1 hx]; trivial
  | leaf a n v k => intro x hx; rw [List.mem_singleton.1 hx]; exact fit hb hw hl
  | branch a cs v d k xs u r h ih =>
    intro x hx
    rcases List.mem_cons.1 hx with rfl | hx
    · exact d.isLt
    · exact ih (b := b - 1) (by omega) (hw d) (hl.2 d) x hx
  | ext a n c k xs u r h ih =>
    intro x hx
    rcases List.mem_cons.1 hx with rfl | hx
    · exact fit hb hw.1 hl.1
    · exact ih (by omega) hw.2 hl.2 x hx

theorem tour_ne {t : Trie α} {k : Key} {xs : List (Trie α × PathSegment)} {u : Trie α} {r : Key}
    (h : t.Tour k xs u r) : xs ≠ [] := by cases h <;> simp

end

/-! ## C49 -/

/-- C49: a path is printed as the texts of its segments, separated by arrows. -/
theorem C49_path_text (P : Profile) {p : List PathSegment} (hp : ∀ s ∈ p, s.Fits) :
    ∃ ts, List.Forall₂ (fun s x => s.show P = .ok x) p ts ∧
      showPath P p = .ok (List.intercalate t!" --> " ts) := by
  refine ⟨p.map segText, ?_, by rw [path_ok hp, intercalate_path]⟩
  rw [List.forall₂_map_right_iff]
  exact List.forall₂_same.2 fun s hs => seg_ok (hp s hs)

/-- C49: the text of a path determines it. -/
theorem C49_path_injective (P P' : Profile) {p q : List PathSegment} (hp : ∀ s ∈ p, s.Fits)
    (hq : ∀ s ∈ q, s.Fits) (h : showPath P p = showPath P' q) : p = q := by
  rw [path_ok hp, path_ok hq] at h
  exact pathText_inj hp hq (Except.ok.inj h)

/-- C49: reports of differences are printed without panic, and the text determines the report. -/
theorem C49_diff_injective (P P' : Profile) {d e : Option DiffPoint} (hd : ∀ x, d = some x → x.Fits)
    (he : ∀ x, e = some x → x.Fits) :
    (∃ x, showDiff P d = .ok x) ∧ (showDiff P d = showDiff P' e → d = e) := by
  cases d with
  | none =>
    refine ⟨⟨_, rfl⟩, fun h => ?_⟩
    cases e with
    | none => rfl
    | some e =>
      rw [showDiff, showDiff, diff_ok (he e rfl)] at h
      simp [diffText] at h
  | some d =>
    refine ⟨⟨_, by rw [showDiff, diff_ok (hd d rfl)]⟩, fun h => ?_⟩
    cases e with
    | none =>
      rw [showDiff, showDiff, diff_ok (hd d rfl)] at h
      simp [diffText] at h
    | some e =>
      rw [showDiff, showDiff, diff_ok (hd d rfl), diff_ok (he e rfl)] at h
      rw [diffText_inj (hd d rfl) (he e rfl) (Except.ok.inj h)]

section

variable {K : Kind} {M : Mode} {P : Profile} {kec : Bytes → H256} {s : Sys K.Ann K.State}
  {i j : Nat} {a b : Trie K.Ann} {K' : Kind} {M' : Mode} {P' : Profile} {s' : Sys K'.Ann K'.State}
  {i' j' : Nat} {a' b' : Trie K'.Ann}

theorem diff_fits (h : Live K M P kec s) (hi : s.hs[i]? = some a) (hj : s.hs[j]? = some b)
    (pa : a.storedPiece.count ≤ 64) (pb : b.storedPiece.count ≤ 64)
    {r : Option DiffPoint} (hr : (a.diff P kec b s.state).map (·.1) = .ok r) (d : DiffPoint)
    (hd : r = some d) : d.Fits := by
  subst hd
  obtain ⟨H, hH⟩ := h.hashFn
  rw [C41_exact h hi hj pa pb hH] at hr
  have ba := (h.shape (List.mem_of_getElem? hi)).2
  have bb := (h.shape (List.mem_of_getElem? hj)).2
  rw [← toList_length] at pa pb
  have hbh : ∀ {u : Trie K.Ann}, u.plain.isBH → u.storedPiece.toList.length ≤ 0 := by
    intro u hu
    cases u <;> first | exact Nat.le_refl _ | exact hu.elim
  have rep : ∀ {u v : Trie K.Ann} {q : Key} {path : List PathSegment} {x y : Nat}, u.storedPiece.toList.length ≤ x →
      v.storedPiece.toList.length ≤ y → q.length + x ≤ 128 → q.length + y ≤ 128 → (∀ s ∈ path, s.Fits) →
      (reportOf H u v q path).Fits := by
    intro u v q path x y hu hv hx hy hp
    exact ⟨hp, fits_ofList (by omega), fits_ofList (by simp; omega), fits_ofList (by simp; omega)⟩
  have here : ∀ {u v : Trie K.Ann} {q : Key} {path : List PathSegment} {x y : Nat}, u.storedPiece.toList.length ≤ x →
      v.storedPiece.toList.length ≤ y → q.length + x ≤ 128 → q.length + y ≤ 128 → (∀ s ∈ path, s.Fits) →
      diffHere H u v q path = .ok (some d) → d.Fits := by
    intro u v q path x y hu hv hx hy hp hh
    unfold diffHere at hh
    split at hh
    · cases hh
    · split at hh
      · cases hh; exact rep hu hv hx hy hp
      · cases hh
  unfold diffOutcome at hr
  split at hr
  · cases hr
  · split at hr
    · rename_i x n c y m c'
      have wn := (h.wfKeys (List.mem_of_getElem? hi)).1
      split at hr
      · cases hr
        exact rep pa pb (by simp) (by simp) (by simp)
      · simp only [Trie.storedPiece] at pa
        refine here (hbh ba.2.1) (hbh bb.2.1) (by omega) (by omega) ?_ hr
        intro s hs
        rw [List.mem_singleton.1 hs]
        rw [toList_length] at pa
        exact ⟨wn, by omega⟩
    · exact here pa pb (by simp) (by simp) (by simp) hr

/-- C49: what the diff tool returns is printed without panic, and two results that are printed alike are
equal. -/
theorem C49_diff (h : Live K M P kec s) (hi : s.hs[i]? = some a) (hj : s.hs[j]? = some b)
    (pa : a.storedPiece.count ≤ 64) (pb : b.storedPiece.count ≤ 64)
    {r : Option DiffPoint} (hr : (a.diff P kec b s.state).map (·.1) = .ok r) :
    (∃ x, showDiff P r = .ok x) ∧
    ∀ {r' : Option DiffPoint}, Live K' M' P' kec s' → s'.hs[i']? = some a' → s'.hs[j']? = some b' →
      a'.storedPiece.count ≤ 64 → b'.storedPiece.count ≤ 64 →
      (a'.diff P' kec b' s'.state).map (·.1) = .ok r' → showDiff P r = showDiff P' r' → r = r' := by
  refine ⟨(C49_diff_injective P P' (d := r) (e := r) (diff_fits h hi hj pa pb hr) (diff_fits h hi hj pa pb hr)).1, ?_⟩
  intro r' h' hi' hj' pa' pb' hr' he
  exact (C49_diff_injective P P' (diff_fits h hi hj pa pb hr) (diff_fits h' hi' hj' pa' pb' hr')).2 he

end

/-! ## C50 -/

/-- The header of the text of a query. -/
def headerText (o : QueryOutput) : Text :=
  t!"Query Result {\nQueried Key: " ++ (keyText o.k ++ '\n' :: (t!"Node found: " ++
    (showBool o.out.found ++ '\n' :: t!"}\nQuery path:\n")))

theorem showNodes_ok {P : Profile} {p : QueryParams} {es : List (Option ExtraInfo)} :
    ∀ {ss : List PathSegment} {n : Nat}, (∀ s ∈ ss, s.Fits) → n + ss.length ≤ es.length →
    showNodes P p es ss n = .ok ((ss.zip (es.drop n)).flatMap fun x => nodeText p x.1 x.2 ++ t!"\nV\n")
  | [], n, _, _ => rfl
  | s :: ss, n, hs, hl => by
    simp only [List.length_cons] at hl
    have hn : n < es.length := by omega
    rw [showNodes, extraAt, List.getElem?_eq_getElem hn]
    have ih := showNodes_ok (P := P) (p := p) (es := es) (ss := ss) (n := n + 1)
      (fun x hx => hs x (by simp [hx])) (by omega)
    simp only [R_bind_ok, node_ok (hs s (by simp)), ih, R_pure]
    rw [List.drop_eq_getElem_cons hn, List.zip_cons_cons, List.flatMap_cons,
      List.append_assoc (nodeText _ _ _)]
    rfl

/-- All that is needed to print the output of a query. -/
structure QueryOutput.Fits (o : QueryOutput) : Prop where
  key : o.k.Fits
  path : ∀ s ∈ o.out.path, s.Fits
  ne : o.out.path ≠ []
  len : o.out.extra.length = o.out.path.length

theorem nodesText_concat (p : QueryParams) (xs : List (PathSegment × Option ExtraInfo))
    (x : PathSegment × Option ExtraInfo) :
    (xs.flatMap fun x => nodeText p x.1 x.2 ++ t!"\nV\n") ++ nodeText p x.1 x.2 = nodesText p (xs ++ [x]) := by
  induction xs with
  | nil => rfl
  | cons y xs ih =>
    rw [List.flatMap_cons, List.append_assoc, ih]
    cases xs <;> simp [nodesText]

theorem intercalate_nodes (p : QueryParams) (xs : List (PathSegment × Option ExtraInfo)) :
    List.intercalate t!"\nV\n" (xs.map fun x => nodeText p x.1 x.2) = nodesText p xs := by
  induction xs with
  | nil => rfl
  | cons s r ih =>
    cases r with
    | nil => simp [List.intercalate, nodesText]
    | cons s' r =>
      rw [nodesText, ← ih]
      simp [List.intercalate]

theorem query_text {P : Profile} {o : QueryOutput} (ho : o.Fits) :
    o.show P = .ok (headerText o ++ nodesText o.params (o.out.path.zip o.out.extra)) := by
  obtain ⟨k, ⟨path, extra, found⟩, p⟩ := o
  obtain ⟨hk, hp, hn, hl⟩ := ho
  simp only at hk hp hn hl
  obtain ⟨ss, s, rfl⟩ := (List.eq_nil_or_concat path).resolve_left hn
  rw [List.concat_eq_append] at *
  obtain ⟨es, e, rfl⟩ := (List.eq_nil_or_concat extra).resolve_left (by rintro rfl; simp at hl)
  rw [List.concat_eq_append] at *
  simp only [List.length_append, List.length_singleton, Nat.add_right_cancel_iff] at hl
  have h1 : usub P (ss ++ [s]).length 1 = .ok ss.length := by simp [usub]
  have h2 : extraAt (es ++ [e]) ss.length = .ok e := by
    rw [extraAt, ← hl, List.getElem?_concat_length]
  have h3 := showNodes_ok (P := P) (p := p) (ss := ss) (n := 0) (es := es ++ [e])
    (fun x hx => hp x (by simp [hx])) (by simp; omega)
  simp only [QueryOutput.show, showHeader, show_ok hk, R_bind_ok, R_pure, h1, List.take_left,
    List.getLast?_concat, h2, node_ok (hp s (by simp)), h3]
  rw [List.drop_zero, List.zip_append hl.symm, List.zip_cons_cons, List.zip_nil_left,
    ← nodesText_concat]
  have : ss.zip (es ++ [e]) = ss.zip es := by
    conv => lhs; rw [show ss = ss ++ [] by simp]
    rw [List.zip_append hl.symm]; simp
  rw [this]
  simp [headerText]

theorem headerText_inj {o o' : QueryOutput} (hk : o.k.Fits) (hk' : o'.k.Fits) {x y : Text}
    (h : headerText o ++ x = headerText o' ++ y) : o.k = o'.k ∧ o.out.found = o'.out.found ∧ x = y := by
  simp only [headerText, List.append_assoc, List.cons_append, List.nil_append, List.cons.injEq, true_and] at h
  obtain ⟨h1, h⟩ := cut (keyText_not (by decide) (by decide) _) (keyText_not (by decide) (by decide) _) h
  simp only [List.cons.injEq, true_and] at h
  have hb : ∀ b, '\n' ∉ showBool b := by decide
  obtain ⟨h2, h⟩ := cut (hb _) (hb _) h
  simp only [List.cons.injEq, true_and] at h
  refine ⟨keyText_inj hk hk' h1, ?_, h⟩
  revert h2
  cases o.out.found <;> cases o'.out.found <;> decide

section

variable {K : Kind} {M : Mode} {P : Profile} {kec : Bytes → H256} {s : Sys K.Ann K.State}
  {i : Nat} {t : Trie K.Ann} {K' : Kind} {M' : Mode} {P' : Profile} {kec' : Bytes → H256}
  {s' : Sys K'.Ann K'.State} {i' : Nat} {t' : Trie K'.Ann}

theorem query_fits (h : Live K M P kec s) (hi : s.hs[i]? = some t) {k : Key} (hk : k.length ≤ 127)
    {p : QueryParams} {o : QueryOutput} (ho : getPathFromQuery P t (p.build (ofList k)) = .ok o) :
    o.Fits ∧ o.k = ofList k ∧ o.params = p ∧ query P t (ofList k) = .ok o.out := by
  simp only [getPathFromQuery, QueryParams.build, R_bind_eq_ok] at ho
  obtain ⟨out, h1, h2⟩ := ho
  cases h2
  refine ⟨?_, rfl, rfl, h1⟩
  obtain ⟨h3, h4⟩ := C40_exact h hi hk
  by_cases ht : ∃ xs u r, t.Tour k xs u r
  · obtain ⟨xs, u, r, ht⟩ := ht
    obtain ⟨out', g1, g2, g3, _⟩ := h3 xs u r ht
    rw [h1] at g1
    cases g1
    refine ⟨fits_ofList (by omega), ?_, ?_, ?_⟩
    · rw [g2]
      intro s hs
      obtain ⟨x, hx, rfl⟩ := List.mem_map.1 hs
      exact tour_fits ht (by decide) (h.wfKeys (List.mem_of_getElem? hi))
        (h.shape (List.mem_of_getElem? hi)).1 x hx
    · rw [g2]; simpa using tour_ne ht
    · rw [g2, g3.length_eq, List.length_map]
  · obtain ⟨e, he⟩ := h4 ht
    rw [h1] at he; cases he

/-- C50: whatever the parameters, the output of a query is printed without panic: a header, and the
texts of all nodes on the path in order. -/
theorem C50_text (h : Live K M P kec s) (hi : s.hs[i]? = some t) {k : Key} (hk : k.length ≤ 127)
    (p : QueryParams) {o : QueryOutput} (ho : getPathFromQuery P t (p.build (ofList k)) = .ok o) :
    ∃ hd ts, showHeader P o = .ok hd ∧
      List.Forall₂ (fun x y => showNode P p x.1 x.2 = .ok y) (o.out.path.zip o.out.extra) ts ∧
      ts.length = o.out.path.length ∧
      o.show P = .ok (hd ++ t!"Query path:\n" ++ List.intercalate t!"\nV\n" ts) := by
  obtain ⟨hf, _, rfl, _⟩ := query_fits h hi hk ho
  refine ⟨_, (o.out.path.zip o.out.extra).map fun x => nodeText o.params x.1 x.2,
    by simp only [showHeader, show_ok hf.key, R_bind_ok, R_pure]; rfl, ?_, by simp [hf.len], ?_⟩
  · rw [List.forall₂_map_right_iff]
    exact List.forall₂_same.2 fun x hx => node_ok (hf.path _ (List.of_mem_zip hx).1) _
  · rw [query_text hf, intercalate_nodes]
    simp [headerText]

/-- C50: if the types and key pieces of nodes are printed, which is the default, then two outputs that
are printed alike have the same key, the same answer and the same path; and the same other information,
if it is printed. -/
theorem C50_injective (h : Live K M P kec s) (hi : s.hs[i]? = some t) {k : Key} (hk : k.length ≤ 127)
    (h' : Live K' M' P' kec' s') (hi' : s'.hs[i']? = some t') {k' : Key} (hk' : k'.length ≤ 127)
    {p : QueryParams} (ht : p.nodeType = true) (hp : p.keyPiece = true) {o o' : QueryOutput}
    (ho : getPathFromQuery P t (p.build (ofList k)) = .ok o)
    (ho' : getPathFromQuery P' t' (p.build (ofList k')) = .ok o') (he : o.show P = o'.show P') :
    k = k' ∧ o.out.found = o'.out.found ∧ o.out.path = o'.out.path ∧
      (p.specific = true → o.out.extra = o'.out.extra) := by
  obtain ⟨hf, h1, h2, _⟩ := query_fits h hi hk ho
  obtain ⟨hf', h1', h2', _⟩ := query_fits h' hi' hk' ho'
  rw [query_text hf, query_text hf'] at he
  obtain ⟨g1, g2, g3⟩ := headerText_inj hf.key hf'.key (Except.ok.inj he)
  rw [h2, h2'] at g3
  have ne : ∀ {o : QueryOutput}, o.Fits → o.out.path.zip o.out.extra ≠ [] := by
    intro o ho e
    have h1 := congrArg List.length e
    have h2 := List.length_pos_of_ne_nil ho.ne
    rw [List.length_zip, ho.len, Nat.min_self, List.length_nil] at h1
    omega
  have ft : ∀ {o : QueryOutput}, o.Fits → ∀ x ∈ o.out.path.zip o.out.extra, x.1.Fits :=
    fun ho x hx => ho.path _ (List.of_mem_zip hx).1
  obtain ⟨g4, g5⟩ := nodesText_inj ht hp (ne hf) (ne hf') (ft hf) (ft hf') g3
  refine ⟨?_, g2, ?_, fun hs => ?_⟩
  · rw [h1, h1'] at g1
    have := congrArg Nibbles.toList g1
    rwa [toList_ofList (by omega), toList_ofList (by omega)] at this
  · rwa [List.map_fst_zip (by rw [hf.len]), List.map_fst_zip (by rw [hf'.len])] at g4
  · have := congrArg (List.map (·.2)) (g5 hs)
    rwa [List.map_snd_zip (by rw [hf.len]), List.map_snd_zip (by rw [hf'.len])] at this

end

/-! ## Examples -/

/-- The text of a query in a program. -/
def queryText (K : Kind) (P : Profile) (cs : List Cmd) (k : Key) (p : QueryParams) : R Text := do
  let (s, _) ← K.run P kec0 cs
  match s.hs[0]? with
  | some t => (← getPathFromQuery P t (p.build (ofList k))).show P
  | none => .error .expectFailed

example : ∀ K : Kind, ∀ P : Profile,
    queryText K P [.fromIter [([1, 5], .val [7]), ([2, 3], .val [8]), ([2, 4, 6], .val [9])]] [2, 4, 6]
      .default = .ok (t!"Query Result {\nQueried Key: 0x246\nNode found: true\n}\nQuery path:\n" ++
        t!"Branch(key: 0x2)\nV\nBranch(key: 0x4)\nV\nLeaf(key: 0x6)") ∧
    queryText K P [.fromIter [([1, 5], .val [7]), ([2, 3], .val [8]), ([2, 4, 6], .val [9])]] [2, 4, 6]
      (QueryParams.default.printSpecific true) =
      .ok (t!"Query Result {\nQueried Key: 0x246\nNode found: true\n}\nQuery path:\n" ++
        t!"Branch(key: 0x2, Extra Seg Info: mask: 0b0000000000000110 (Num Children: 2))\nV\n" ++
        t!"Branch(key: 0x4, Extra Seg Info: mask: 0b0000000000011000 (Num Children: 2))\nV\n" ++
        t!"Leaf(key: 0x6, Extra Seg Info: Leaf Value: 09)") := by
  intro K ⟨P⟩; cases K <;> cases P <;> decide +kernel

/-- Without key pieces different queries are printed alike, except for the header. -/
example : ∀ P : Profile,
    showNode P (QueryParams.default.printKeyPieces false) (.branch 1) none =
    showNode P (QueryParams.default.printKeyPieces false) (.branch 2) none := by
  intro ⟨P⟩; cases P <;> decide +kernel

example : ∀ P : Profile, showPath P [.ext ⟨2, 0x12⟩, .branch 11, .leaf ⟨0, 0⟩] =
    .ok t!"Extension(0x12) --> Branch(11) --> Leaf(0x)" := by
  intro ⟨P⟩; cases P <;> decide +kernel

example : ∀ P : Profile, (Nibbles.mk 3 0x12).debug P =
    .ok t!"Nibbles { count: 3, packed: \"0x012\" }" := by
  intro ⟨P⟩; cases P <;> decide +kernel

example : ∀ K : Kind, ∀ P : Profile,
    ((diffObs K P [.fromIter [([1, 2, 3, 4], .val [0])], .fromIter [([1, 2, 3, 4], .val [1])]]).bind
      fun r => (showDiff P r.1).map (·.take 93)) =
    .ok t!"Point Diff {depth: 0, Path: (), Key: 0x A info: (key: 0x1234 Value: 0x00, Node type: Leaf Tri" := by
  intro K ⟨P⟩; cases K <;> cases P <;> decide +kernel

end EthTrie
