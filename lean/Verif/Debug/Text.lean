import Verif.Debug.Display
import Verif.Props.KeyConv

/-!
# Lemmas on the texts printed by the debug tools
-/

namespace EthTrie

open Nibbles Spec

/-- Texts up to the first occurrence of a character. -/
theorem cut {c : Char} {a b x y : Text} (ha : c ∉ a) (hb : c ∉ b) (h : a ++ c :: x = b ++ c :: y) :
    a = b ∧ x = y := by
  induction a generalizing b with
  | nil =>
    cases b with
    | nil => simpa using h
    | cons d b => simp at h hb; exact absurd h.1 hb.1
  | cons d a ih =>
    cases b with
    | nil => simp at h ha; exact absurd h.1.symm ha.1
    | cons e b =>
      simp only [List.cons_append, List.cons.injEq] at h
      obtain ⟨h1, h2⟩ := ih (by simp at ha; exact ha.2) (by simp at hb; exact hb.2) h.2
      exact ⟨by rw [h.1, h1], h2⟩

/-! ### Numbers -/

theorem showNat_inj {m n : Nat} (h : showNat m = showNat n) : m = n := by
  rw [← Nat.ofDigitChars_ten_toDigits (n := m), ← Nat.ofDigitChars_ten_toDigits (n := n)]
  exact congrArg (fun l => Nat.ofDigitChars 10 l 0) h

theorem showNat_not {c : Char} (h : c.isDigit = false) (n : Nat) : c ∉ showNat n := fun hc => by
  have := Nat.isDigit_of_mem_toDigits (by decide) (by decide) hc
  rw [h] at this; cases this

/-! ### Hex strings -/

/-- A lower-case hex digit. -/
def IsHexChar (c : Char) : Prop := ∃ d : Fin 16, c = hexChar false d

theorem hexChar_inj : ∀ {a b : Fin 16}, hexChar false a = hexChar false b → a = b := by decide

theorem mem_hex {l : Key} {c : Char} (h : c ∈ l.map (hexChar false)) : IsHexChar c := by
  obtain ⟨d, _, rfl⟩ := List.mem_map.1 h
  exact ⟨d, rfl⟩

theorem hex_inj {l m : Key} (h : l.map (hexChar false) = m.map (hexChar false)) : l = m :=
  (List.map_inj_right fun _ _ => hexChar_inj).1 h

theorem nibblesOfBytes_inj {a b : Bytes} (h : nibblesOfBytes a = nibblesOfBytes b) : a = b := by
  rw [← pairs_nibblesOfBytes a, h, pairs_nibblesOfBytes]

theorem hexEncode_inj {a b : Bytes} (h : hexEncode false a = hexEncode false b) : a = b := by
  rw [hexEncode_eq, hexEncode_eq] at h
  exact nibblesOfBytes_inj (hex_inj h)

theorem hexEncode_not {c : Char} (h : ∀ d : Fin 16, hexChar false d ≠ c) (v : Bytes) :
    c ∉ hexEncode false v := by
  rw [hexEncode_eq]
  intro hc
  obtain ⟨d, hd⟩ := mem_hex hc
  exact h d hd.symm

/-! ### Keys -/

/-- The text of a key. -/
def keyText (n : Nibbles) : Text := '0' :: 'x' :: n.toList.map (hexChar false)

theorem show_ok {P : Profile} {n : Nibbles} (hn : n.Fits) : n.show P = .ok (keyText n) := by
  obtain ⟨l, hl, rfl⟩ := wf_cases hn.1 hn.2
  rw [Nibbles.show, asHexStr_ok P hl, keyText, toList_ofList hl]; rfl

theorem keyText_inj {a b : Nibbles} (ha : a.Fits) (hb : b.Fits) (h : keyText a = keyText b) : a = b := by
  simp only [keyText, List.cons.injEq, true_and] at h
  rw [← ofList_toList ha.1, ← ofList_toList hb.1, hex_inj h]

theorem keyText_not {c : Char} (h : ∀ d : Fin 16, hexChar false d ≠ c) (hx : c ≠ 'x') (n : Nibbles) :
    c ∉ keyText n := by
  simp only [keyText, List.mem_cons, not_or]
  exact ⟨fun e => h 0 (by rw [e]; decide), hx, fun hc => by
    obtain ⟨d, hd⟩ := mem_hex hc
    exact h d hd.symm⟩

/-! ### Paths -/

/-- The segment can be printed: its key fits, and the nibble of a branch is a nibble. -/
def PathSegment.Fits : PathSegment → Prop
  | .empty => True
  | .hash => True
  | .branch n => n < 16
  | .ext n => n.Fits
  | .leaf n => n.Fits

/-- The text of a segment. -/
def segText : PathSegment → Text
  | .empty => t!"Empty"
  | .hash => t!"Hash"
  | .branch n => t!"Branch(" ++ (showNat n ++ [')'])
  | .ext n => t!"Extension(" ++ (keyText n ++ [')'])
  | .leaf n => t!"Leaf(" ++ (keyText n ++ [')'])

theorem seg_ok {P : Profile} {s : PathSegment} (hs : s.Fits) : s.show P = .ok (segText s) := by
  cases s with
  | empty => rfl
  | hash => rfl
  | branch n => simp [PathSegment.show, segText]
  | ext n => simp [PathSegment.show, segText, show_ok hs, R_bind_ok, R_pure]
  | leaf n => simp [PathSegment.show, segText, show_ok hs, R_bind_ok, R_pure]

theorem segText_inj {s r : PathSegment} (hs : s.Fits) (hr : r.Fits) (h : segText s = segText r) : s = r := by
  have h1 : ')' ∉ keyText ⟨0, 0⟩ := by decide
  have k : ∀ {a b : Nibbles}, a.Fits → b.Fits → keyText a ++ [')'] = keyText b ++ [')'] → a = b := by
    intro a b ha hb h
    exact keyText_inj ha hb (List.append_cancel_right h)
  cases s <;> cases r <;> simp [segText] at h
  · rfl
  · rfl
  · rw [showNat_inj h]
  · rw [keyText_inj hs hr h]
  · rw [keyText_inj hs hr h]

theorem segText_not {c : Char} (h : ∀ d : Fin 16, hexChar false d ≠ c) (hd : c.isDigit = false)
    (hc : c ∉ t!"EmptyHashBranch(Extension(Leaf(0x)") (s : PathSegment) : c ∉ segText s := by
  simp at hc
  cases s with
  | empty => simp [segText]; grind
  | hash => simp [segText]; grind
  | branch n =>
    have := showNat_not hd n
    simp [segText]; grind
  | ext n =>
    have := keyText_not h (by grind) n
    simp [segText]; grind
  | leaf n =>
    have := keyText_not h (by grind) n
    simp [segText]; grind

theorem segText_ne (s : PathSegment) : segText s ≠ [] := by cases s <;> simp [segText]

/-- The text of a path. -/
def pathText : List PathSegment → Text
  | [] => []
  | [s] => segText s
  | s :: s' :: r => segText s ++ ' ' :: (t!"--> " ++ pathText (s' :: r))

theorem intercalate_path (p : List PathSegment) : List.intercalate t!" --> " (p.map segText) = pathText p := by
  induction p with
  | nil => rfl
  | cons s r ih =>
    cases r with
    | nil => simp [List.intercalate, pathText]
    | cons s' r =>
      rw [pathText, ← ih]
      simp [List.intercalate]

theorem showSegs_ok {P : Profile} {p : List PathSegment} (hp : ∀ s ∈ p, s.Fits) :
    showSegs P p = .ok (p.flatMap fun s => segText s ++ t!" --> ") := by
  induction p with
  | nil => rfl
  | cons s r ih =>
    rw [showSegs, seg_ok (hp s (by simp)), ih fun x hx => hp x (by simp [hx])]
    simp [R_bind_ok, R_pure]

theorem path_ok {P : Profile} {p : List PathSegment} (hp : ∀ s ∈ p, s.Fits) :
    showPath P p = .ok (pathText p) := by
  rw [showPath, showSegs_ok fun s hs => hp s (List.mem_of_mem_take hs), R_bind_ok]
  rcases List.eq_nil_or_concat p with rfl | ⟨r, s, rfl⟩
  · rfl
  · rw [List.concat_eq_append] at hp ⊢
    rw [List.length_append, List.length_singleton, Nat.add_sub_cancel, List.take_left,
      List.getLast?_concat]
    simp only [seg_ok (hp s (by simp)), R_bind_ok, R_pure, Except.ok.injEq]
    clear hp
    induction r with
    | nil => rfl
    | cons x r ih =>
      rw [List.flatMap_cons, List.append_assoc, ih]
      cases r <;> simp [pathText]

theorem pathText_inj {p q : List PathSegment} (hp : ∀ s ∈ p, s.Fits) (hq : ∀ s ∈ q, s.Fits)
    (h : pathText p = pathText q) : p = q := by
  have sp : ∀ s : PathSegment, ' ' ∉ segText s := segText_not (by decide) (by decide) (by decide)
  induction p generalizing q with
  | nil =>
    match q with
    | [] => rfl
    | [s] => exact absurd h.symm (segText_ne s)
    | s :: s' :: r => simp [pathText] at h
  | cons s r ih =>
    match r, q with
    | [], [] => exact absurd h (segText_ne s)
    | _ :: _, [] => simp [pathText] at h
    | [], [x] => rw [segText_inj (hp s (by simp)) (hq x (by simp)) h]
    | [], x :: x' :: r' =>
      refine absurd ?_ (sp s)
      rw [show segText s = pathText [s] from rfl, h]; simp [pathText]
    | s' :: r', [x] =>
      refine absurd ?_ (sp x)
      rw [show segText x = pathText [x] from rfl, ← h]; simp [pathText]
    | s' :: r', x :: x' :: q' =>
      simp only [pathText] at h
      obtain ⟨h1, h2⟩ := cut (sp s) (sp x) h
      rw [segText_inj (hp s (by simp)) (hq x (by simp)) h1,
        ih (fun s hs => hp s (by simp [hs])) (q := x' :: q') (fun s hs => hq s (by simp [hs]))
          (List.append_cancel_left h2)]

theorem pathText_not {c : Char} (h : ∀ d : Fin 16, hexChar false d ≠ c) (hd : c.isDigit = false)
    (hc : c ∉ t!"EmptyHashBranch(Extension(Leaf(0x)") (ha : c ∉ t!" --> ") (p : List PathSegment) :
    c ∉ pathText p := by
  rw [← intercalate_path]
  induction p with
  | nil => simp
  | cons s r ih =>
    have := segText_not h hd hc s
    cases r with
    | nil => simpa [List.intercalate] using this
    | cons s' r =>
      simp only [List.map_cons, List.intercalate, List.intersperse_cons₂, List.flatten_cons,
        List.mem_append, not_or] at ih ⊢
      exact ⟨this, ha, ih⟩

/-! ### Diffs -/

/-- The keys of the information fit. -/
def NodeInfo.Fits (i : NodeInfo) : Prop := i.key.Fits

/-- All keys in the report fit. -/
def DiffPoint.Fits (d : DiffPoint) : Prop :=
  (∀ s ∈ d.path, s.Fits) ∧ d.key.Fits ∧ d.a.Fits ∧ d.b.Fits

/-- The text of a value. -/
def valueText : Option Bytes → Text
  | some v => '0' :: 'x' :: hexEncode false v
  | none => t!"N/A"

theorem valueText_inj {v w : Option Bytes} (h : valueText v = valueText w) : v = w := by
  cases v <;> cases w <;> simp [valueText] at h
  · rfl
  · rw [hexEncode_inj h]

theorem valueText_not (v : Option Bytes) : ',' ∉ valueText v := by
  cases v with
  | none => simp [valueText]
  | some v =>
    have := hexEncode_not (c := ',') (by decide) v
    simp [valueText, this]

theorem type_inj : ∀ {a b : NodeType}, a.show = b.show → a = b := by
  intro a b; cases a <;> cases b <;> simp [NodeType.show]

theorem type_not (a : NodeType) : ' ' ∉ a.show ∧ '(' ∉ a.show := by cases a <;> simp [NodeType.show]

/-- The text of the information on a node. -/
def infoText (i : NodeInfo) : Text :=
  t!"(key: " ++ (keyText i.key ++ ' ' :: (t!"Value: " ++ (valueText i.value ++ ',' ::
    (t!" Node type: " ++ (i.type.show ++ ' ' :: (t!"Trie hash: " ++
      (hexEncode false i.hash.toList ++ [')'])))))))

theorem info_ok {P : Profile} {i : NodeInfo} (hi : i.Fits) : i.show P = .ok (infoText i) := by
  rw [NodeInfo.show, show_ok hi, R_bind_ok]
  cases hv : i.value <;> simp [infoText, valueText, hv, R_pure]

theorem infoText_inj {i j : NodeInfo} (hi : i.Fits) (hj : j.Fits) {x y : Text}
    (h : infoText i ++ x = infoText j ++ y) : i = j ∧ x = y := by
  obtain ⟨k, v, t, z⟩ := i
  obtain ⟨k', v', t', z'⟩ := j
  simp only [infoText, List.append_assoc, List.cons_append, List.nil_append, List.cons.injEq, true_and] at h
  obtain ⟨h1, h⟩ := cut (keyText_not (by decide) (by decide) _) (keyText_not (by decide) (by decide) _) h
  simp only [List.cons.injEq, true_and] at h
  obtain ⟨h2, h⟩ := cut (valueText_not _) (valueText_not _) h
  simp only [List.cons.injEq, true_and] at h
  obtain ⟨h3, h⟩ := cut (type_not _).1 (type_not _).1 h
  simp only [List.cons.injEq, true_and] at h
  obtain ⟨h4, h⟩ := cut (hexEncode_not (by decide) _) (hexEncode_not (by decide) _) h
  have e1 := keyText_inj hi hj h1
  have e2 := valueText_inj h2
  have e3 := type_inj h3
  have e4 := Vector.toList_inj.1 (hexEncode_inj h4)
  simp only at e1 e2 e3 e4
  exact ⟨by rw [e1, e2, e3, e4], by simpa using h⟩

/-- The text of a report. -/
def diffText (d : DiffPoint) : Text :=
  t!"Point Diff {depth: " ++ (showNat d.depth ++ ',' :: (t!" Path: (" ++ (pathText d.path ++ t!"), " ++
    'K' :: (t!"ey: " ++ (keyText d.key ++ ' ' :: (t!"A info: " ++ (infoText d.a ++ (t!" B info: " ++
      (infoText d.b ++ t!"}")))))))))

theorem diff_ok {P : Profile} {d : DiffPoint} (hd : d.Fits) : d.show P = .ok (diffText d) := by
  rw [DiffPoint.show, path_ok hd.1, R_bind_ok, show_ok hd.2.1, R_bind_ok, info_ok hd.2.2.1, R_bind_ok,
    info_ok hd.2.2.2, R_bind_ok, R_pure]
  simp [diffText]

theorem diffText_inj {d e : DiffPoint} (hd : d.Fits) (he : e.Fits) (h : diffText d = diffText e) : d = e := by
  obtain ⟨n, p, k, a, b⟩ := d
  obtain ⟨n', p', k', a', b'⟩ := e
  obtain ⟨hp, hk, ha, hb⟩ := hd
  obtain ⟨hp', hk', ha', hb'⟩ := he
  simp only [diffText] at h
  have h := List.append_cancel_left h
  obtain ⟨h1, h⟩ := cut (showNat_not (by decide) _) (showNat_not (by decide) _) h
  have h := List.append_cancel_left h
  have hK : ∀ p, 'K' ∉ pathText p ++ t!"), " := fun p => by
    have := pathText_not (c := 'K') (by decide) (by decide) (by decide) (by decide) p
    simp [this]
  obtain ⟨h2, h⟩ := cut (hK _) (hK _) h
  have h2 := List.append_cancel_right h2
  have h := List.append_cancel_left h
  obtain ⟨h3, h⟩ := cut (keyText_not (by decide) (by decide) _) (keyText_not (by decide) (by decide) _) h
  have h := List.append_cancel_left h
  obtain ⟨h4, h⟩ := infoText_inj ha ha' h
  have h := List.append_cancel_left h
  obtain ⟨h5, _⟩ := infoText_inj hb hb' h
  have e1 := showNat_inj h1
  have e2 := pathText_inj hp hp' h2
  have e3 := keyText_inj hk hk' h3
  simp only at e1 e2 e3 h4 h5
  rw [e1, e2, e3, h4, h5]

/-! ### Queries -/

theorem cut' {c c' : Char} {a b x y : Text} (ha : c ∉ a ∧ c' ∉ a) (hb : c ∉ b ∧ c' ∉ b)
    (h : a ++ c :: x = b ++ c' :: y) : a = b ∧ c :: x = c' :: y := by
  induction a generalizing b with
  | nil =>
    cases b with
    | nil => exact ⟨rfl, h⟩
    | cons d b => simp at h hb; exact absurd h.1 hb.1.1
  | cons d a ih =>
    cases b with
    | nil => simp at h ha; exact absurd h.1.symm ha.2.1
    | cons e b =>
      simp only [List.cons_append, List.cons.injEq] at h
      obtain ⟨h1, h2⟩ := ih (by simp at ha; exact ⟨ha.1.2, ha.2.2⟩) (by simp at hb; exact ⟨hb.1.2, hb.2.2⟩) h.2
      exact ⟨by rw [h.1, h1], h2⟩

theorem showMask_inj {m n : BitVec 16} (h : showMask m = showMask n) : m = n := by
  simp only [showMask, List.append_cancel_left_eq] at h
  apply BitVec.eq_of_getLsbD_eq
  intro i hi
  have := List.map_inj_left.1 h ⟨15 - i, by omega⟩ (List.mem_finRange _)
  simp only [show 15 - (15 - i) = i by omega] at this
  cases h1 : m.getLsbD i <;> cases h2 : n.getLsbD i <;> simp [h1, h2] at this ⊢

theorem extra_inj {e f : ExtraInfo} (h : e.show = f.show) : e = f := by
  cases e <;> cases f <;> simp [ExtraInfo.show] at h
  · rw [Vector.toList_inj.1 (hexEncode_inj h)]
  · rename_i m n
    have hm : ∀ m, ' ' ∉ showMask m := by
      intro m hm
      simp only [showMask, List.cons_append, List.nil_append, List.mem_cons, List.mem_map,
        Char.reduceEq, false_or] at hm
      obtain ⟨i, _, hi⟩ := hm
      split at hi <;> cases hi
    rw [showMask_inj (cut (hm m) (hm n) h).1]
  · rw [hexEncode_inj h]

theorem extra_not (e : ExtraInfo) : '\n' ∉ e.show := by
  cases e with
  | hash h => have := hexEncode_not (c := '\n') (by decide) h.toList; simp [ExtraInfo.show, this]
  | leaf v => have := hexEncode_not (c := '\n') (by decide) v; simp [ExtraInfo.show, this]
  | branch m =>
    have := showNat_not (c := '\n') (by decide) (countMask m)
    simp [ExtraInfo.show, this, showMask]
    intro i; split <;> decide

/-- The key piece of a segment. -/
def segKey : PathSegment → Option Nibbles
  | .empty => none
  | .hash => none
  | .branch n => some ⟨1, BitVec.ofNat 512 n⟩
  | .ext n => some n
  | .leaf n => some n

theorem segKey_fits {s : PathSegment} (hs : s.Fits) {n : Nibbles} (h : segKey s = some n) : n.Fits := by
  cases s <;> simp only [segKey, reduceCtorEq, Option.some.injEq] at h <;> subst h
  · rename_i d
    have h1 := fromNibble_ok (d := d) hs
    have h2 : fromNibble d = .ok ⟨1, BitVec.ofNat 512 d⟩ := by
      have : d ≤ 15 := Nat.le_of_lt_succ hs
      simp [fromNibble, rassert, this]
    rw [h1] at h2
    rw [← Except.ok.inj h2]
    exact ⟨ofList_WF _, by rw [ofList_count]; simp⟩
  · exact hs
  · exact hs

theorem keyPiece_ok {s : PathSegment} (hs : s.Fits) : s.keyPiece = .ok (segKey s) := by
  cases s with
  | branch n =>
    have : n ≤ 15 := Nat.le_of_lt_succ hs
    simp [PathSegment.keyPiece, fromNibble, rassert, this, segKey]
  | _ => rfl

/-- The text of the key piece. -/
def pieceText (p : QueryParams) (s : PathSegment) : Text :=
  if p.keyPiece then
    match segKey s with
    | some n => t!"key: " ++ keyText n
    | none => []
  else []

theorem piece_ok {P : Profile} {p : QueryParams} {s : PathSegment} (hs : s.Fits) :
    showPiece P p s = .ok (pieceText p s) := by
  unfold showPiece pieceText
  split
  · rw [keyPiece_ok hs, R_bind_ok]
    cases h : segKey s with
    | none => rfl
    | some n => simp only [show_ok (segKey_fits hs h), R_bind_ok, R_pure]
  · rfl

/-- The text of a node. -/
def nodeText (p : QueryParams) (s : PathSegment) (e : Option ExtraInfo) : Text :=
  (if p.nodeType then s.type.show else []) ++ '(' :: (pieceText p s ++ (showExtra p e ++ [')']))

theorem node_ok {P : Profile} {p : QueryParams} {s : PathSegment} (hs : s.Fits) (e : Option ExtraInfo) :
    showNode P p s e = .ok (nodeText p s e) := by
  rw [showNode, piece_ok hs, R_bind_ok, R_pure]
  simp [nodeText]

theorem showExtra_inj {p : QueryParams} (hp : p.specific = true) {e f : Option ExtraInfo}
    (h : showExtra p e = showExtra p f) : e = f := by
  cases e with
  | none => cases f with
    | none => rfl
    | some f => simp [showExtra, hp] at h
  | some e => cases f with
    | none => simp [showExtra, hp] at h
    | some f =>
      simp only [showExtra, hp, if_true, List.append_assoc] at h
      rw [extra_inj (List.append_cancel_left (List.append_cancel_left h))]

/-- What follows the key piece starts with a comma or a parenthesis. -/
theorem showExtra_head {p : QueryParams} (hp : p.keyPiece = true) (e : Option ExtraInfo) :
    ∃ c x, showExtra p e ++ [')'] = c :: x ∧ (c = ',' ∨ c = ')') := by
  unfold showExtra
  split
  · cases e with
    | none => exact ⟨')', [], rfl, .inr rfl⟩
    | some e => exact ⟨',', _, by simp only [hp, if_true, List.cons_append]; rfl, .inl rfl⟩
  · exact ⟨')', [], rfl, .inr rfl⟩

theorem nodeText_inj {p : QueryParams} (ht : p.nodeType = true) (hk : p.keyPiece = true)
    {s r : PathSegment} (hs : s.Fits) (hr : r.Fits) {e f : Option ExtraInfo}
    (h : nodeText p s e = nodeText p r f) : s = r ∧ (p.specific = true → e = f) := by
  simp only [nodeText, ht, if_true] at h
  obtain ⟨h1, h⟩ := cut (type_not _).2 (type_not _).2 h
  have h1 := type_inj h1
  have key : ∀ {n m : Nibbles}, n.Fits → m.Fits → 
      keyText n ++ (showExtra p e ++ [')']) = keyText m ++ (showExtra p f ++ [')']) →
      n = m ∧ showExtra p e = showExtra p f := by
    intro n m hn hm h
    obtain ⟨c, x, g1, g2⟩ := showExtra_head hk e
    obtain ⟨c', x', g3, g4⟩ := showExtra_head hk f
    rw [g1, g3] at h
    have hc : ∀ {c} n, c = ',' ∨ c = ')' → c ∉ keyText n := by
      rintro c n (rfl | rfl)
      · exact keyText_not (by decide) (by decide) _
      · exact keyText_not (by decide) (by decide) _
    obtain ⟨h2, h3⟩ := cut' ⟨hc _ g2, hc _ g4⟩ ⟨hc _ g2, hc _ g4⟩ h
    rw [← g1, ← g3] at h3
    exact ⟨keyText_inj hn hm h2, List.append_cancel_right h3⟩
  have fin : showExtra p e = showExtra p f → p.specific = true → e = f := fun h hp => showExtra_inj hp h
  cases s <;> cases r <;> simp [PathSegment.type] at h1 <;>
    simp only [pieceText, segKey, hk, if_true, List.append_assoc, List.nil_append] at h
  · exact ⟨rfl, fin (List.append_cancel_right h)⟩
  · exact ⟨rfl, fin (List.append_cancel_right h)⟩
  · rename_i a b
    have h := List.append_cancel_left h
    obtain ⟨h2, h3⟩ := key (segKey_fits hs rfl) (segKey_fits hr rfl) h
    refine ⟨?_, fin h3⟩
    simp only [Nibbles.mk.injEq, true_and] at h2
    have := congrArg BitVec.toNat h2
    simp only [PathSegment.Fits] at hs hr
    have big : ∀ {d : Nat}, d < 16 → d < 2 ^ 512 := fun h => Nat.lt_of_lt_of_le h (by decide +kernel)
    rw [BitVec.toNat_ofNat, BitVec.toNat_ofNat, Nat.mod_eq_of_lt (big hs), Nat.mod_eq_of_lt (big hr)] at this
    rw [this]
  · have h := List.append_cancel_left h
    obtain ⟨rfl, h3⟩ := key hs hr h
    exact ⟨rfl, fin h3⟩
  · have h := List.append_cancel_left h
    obtain ⟨rfl, h3⟩ := key hs hr h
    exact ⟨rfl, fin h3⟩

theorem nodeText_not (p : QueryParams) (s : PathSegment) (e : Option ExtraInfo) :
    '\n' ∉ nodeText p s e := by
  have h1 : '\n' ∉ pieceText p s := by
    unfold pieceText
    split
    · split
      · rename_i n _
        have := keyText_not (c := '\n') (by decide) (by decide) n
        simp [this]
      · simp
    · simp
  have h2 : '\n' ∉ showExtra p e := by
    unfold showExtra
    split
    · cases e with
      | none => simp
      | some e =>
        have := extra_not e
        simp [this]
    · simp
  have h3 : '\n' ∉ s.type.show := by cases s <;> simp [PathSegment.type, NodeType.show]
  simp only [nodeText, List.mem_append, List.mem_cons, not_or]
  refine ⟨by split <;> simp [h3], by decide, h1, h2, by decide⟩

/-- The texts of nodes. -/
def nodesText (p : QueryParams) : List (PathSegment × Option ExtraInfo) → Text
  | [] => []
  | [x] => nodeText p x.1 x.2
  | x :: y :: r => nodeText p x.1 x.2 ++ '\n' :: (t!"V\n" ++ nodesText p (y :: r))

theorem nodesText_inj {p : QueryParams} (ht : p.nodeType = true) (hk : p.keyPiece = true) :
    ∀ {xs ys : List (PathSegment × Option ExtraInfo)}, xs ≠ [] → ys ≠ [] → (∀ x ∈ xs, x.1.Fits) →
    (∀ y ∈ ys, y.1.Fits) → nodesText p xs = nodesText p ys →
    xs.map (·.1) = ys.map (·.1) ∧ (p.specific = true → xs = ys)
  | [], _, hx, _, _, _, _ => absurd rfl hx
  | _ :: _, [], _, hy, _, _, _ => absurd rfl hy
  | [x], [y], _, _, hx, hy, h => by
    obtain ⟨h1, h2⟩ := nodeText_inj ht hk (hx x (by simp)) (hy y (by simp)) h
    exact ⟨by simp [h1], fun hp => by rw [Prod.ext h1 (h2 hp)]⟩
  | [x], y :: y' :: ys, _, _, _, _, h => by
    exfalso
    refine nodeText_not p x.1 x.2 ?_
    rw [show nodeText p x.1 x.2 = nodesText p [x] from rfl, h]
    simp [nodesText]
  | x :: x' :: xs, [y], _, _, _, _, h => by
    exfalso
    refine nodeText_not p y.1 y.2 ?_
    rw [show nodeText p y.1 y.2 = nodesText p [y] from rfl, ← h]
    simp [nodesText]
  | x :: x' :: xs, y :: y' :: ys, _, _, hx, hy, h => by
    simp only [nodesText] at h
    obtain ⟨h1, h⟩ := cut (nodeText_not _ _ _) (nodeText_not _ _ _) h
    obtain ⟨h2, h3⟩ := nodeText_inj ht hk (hx x (by simp)) (hy y (by simp)) h1
    obtain ⟨h4, h5⟩ := nodesText_inj ht hk (xs := x' :: xs) (ys := y' :: ys) (by simp) (by simp)
      (fun z hz => hx z (by simp [hz])) (fun z hz => hy z (by simp [hz])) (List.append_cancel_left h)
    exact ⟨by rw [List.map_cons, h2, h4]; rfl, fun hp => by rw [Prod.ext h2 (h3 hp), h5 hp]⟩

end EthTrie
