import Verif.Props.StatsText

/-!
# Property C55: the printed statistics
-/

namespace EthTrie

open F32

variable {α β : Type} {P : Profile}

/-! ### Decimal texts -/

theorem padDigits_length (p n : ℕ) : (padDigits p n).length = p := by
  induction p generalizing n with
  | zero => rfl
  | succ p ih => simp [padDigits, ih]

theorem digitChar_digit {d : ℕ} (h : d < 10) : (Nat.digitChar d).isDigit = true := by
  interval_cases d <;> decide

theorem padDigits_digit (p n : ℕ) : ∀ c ∈ padDigits p n, c.isDigit = true := by
  induction p generalizing n with
  | zero => simp [padDigits]
  | succ p ih =>
    intro c hc
    simp only [padDigits, List.mem_append, List.mem_singleton] at hc
    rcases hc with hc | rfl
    · exact ih _ c hc
    · exact digitChar_digit (Nat.mod_lt _ (by norm_num))

theorem padDigits_value (p n : ℕ) : Nat.ofDigitChars 10 (padDigits p n) 0 = n % 10 ^ p := by
  induction p generalizing n with
  | zero => simp [padDigits, Nat.mod_one]
  | succ p ih =>
    rw [padDigits, Nat.ofDigitChars_append, ih,
      Nat.ofDigitChars_cons_digitChar_of_lt_ten (Nat.mod_lt _ (by norm_num)), Nat.ofDigitChars_nil,
      pow_succ, Nat.mul_comm (10 ^ p) 10, Nat.mod_mul]
    omega

/-- The text is a decimal number with `p` digits after the point; its value is `q` rounded. -/
def IsDecimal (p : ℕ) (x : Text) (q : ℚ) : Prop :=
  ∃ a b : Text, x = a ++ '.' :: b ∧ a ≠ [] ∧ (∀ c ∈ a, c.isDigit = true) ∧ (∀ c ∈ b, c.isDigit = true) ∧
    b.length = p ∧
    |(Nat.ofDigitChars 10 a 0 + Nat.ofDigitChars 10 b 0 / 10 ^ p : ℚ) - q| ≤ 1 / (2 * 10 ^ p)

theorem fixed_decimal (p : ℕ) {q : ℚ} (hq : 0 ≤ q) : IsDecimal p (F32.fixed p (.fin q)) q := by
  have hp : (0 : ℚ) < 10 ^ p := by positivity
  have h0 : 0 ≤ roundEven (q * 10 ^ p) := by
    have := roundEven_mono (show ((0 : ℤ) : ℚ) ≤ q * 10 ^ p by push_cast; positivity)
    rwa [roundEven_int] at this
  obtain ⟨n, hn⟩ := Int.eq_ofNat_of_zero_le h0
  have he := roundEven_err (q * 10 ^ p)
  rw [hn] at he
  refine ⟨showNat (n / 10 ^ p), padDigits p n, ?_, Nat.toDigits_ne_nil, fun c hc => ?_,
    padDigits_digit _ _, padDigits_length _ _, ?_⟩
  · simp [F32.fixed, hn]
  · exact Nat.isDigit_of_mem_toDigits (by decide) (by decide) hc
  · rw [padDigits_value, showNat, Nat.ofDigitChars_ten_toDigits]
    have hd : ((n / 10 ^ p : ℕ) : ℚ) + ((n % 10 ^ p : ℕ) : ℚ) / 10 ^ p = n / 10 ^ p := by
      rw [eq_div_iff hp.ne', add_mul, div_mul_cancel₀ _ hp.ne']
      have := Nat.div_add_mod n (10 ^ p)
      rw [Nat.mul_comm] at this
      exact_mod_cast this
    rw [hd, show (n : ℚ) / 10 ^ p - q = ((n : ℚ) - q * 10 ^ p) / 10 ^ p by field_simp, abs_div,
      abs_of_pos hp, div_le_iff₀ hp]
    refine le_trans he (le_of_eq ?_)
    field_simp

theorem fixed_not {c : Char} (hd : c.isDigit = false) (hc : c ∉ t!".NaNinf") (p : ℕ) (x : F32) :
    c ∉ x.fixed p := by
  simp at hc
  cases x with
  | nan => simp [F32.fixed]; grind
  | inf => simp [F32.fixed]; grind
  | fin q =>
    have h1 := showNat_not hd ((roundEven (q * 10 ^ p)).toNat / 10 ^ p)
    have h2 : c ∉ padDigits p (roundEven (q * 10 ^ p)).toNat := fun h => by
      rw [padDigits_digit _ _ c h] at hd; cases hd
    simp [F32.fixed]
    grind

/-! ### Lines -/

theorem cutR {c : Char} {a b x y : Text} (ha : c ∉ a) (hb : c ∉ b) (h : x ++ c :: a = y ++ c :: b) :
    x = y ∧ a = b := by
  have := congrArg List.reverse h
  simp only [List.reverse_append, List.reverse_cons, List.append_assoc, List.singleton_append] at this
  obtain ⟨h1, h2⟩ := cut (by simpa using ha) (by simpa using hb) this
  exact ⟨List.reverse_injective h2, List.reverse_injective h1⟩

/-- A text followed by lines, each preceded by a line break. -/
def withLines (h : Text) : List Text → Text
  | [] => h
  | l :: ls => withLines (h ++ '\n' :: l) ls

theorem withLines_inj {h h' : Text} {ls ls' : List Text} (hl : ls.length = ls'.length)
    (h1 : ∀ l ∈ ls, '\n' ∉ l) (h2 : ∀ l ∈ ls', '\n' ∉ l) (e : withLines h ls = withLines h' ls') :
    h = h' ∧ ls = ls' := by
  induction ls generalizing h h' ls' with
  | nil =>
    cases ls' with
    | nil => exact ⟨e, rfl⟩
    | cons l ls' => cases hl
  | cons l ls ih =>
    cases ls' with
    | nil => cases hl
    | cons l' ls' =>
      obtain ⟨e1, e2⟩ := ih (by simpa using hl) (fun x hx => h1 x (List.mem_cons_of_mem _ hx))
        (fun x hx => h2 x (List.mem_cons_of_mem _ hx)) e
      obtain ⟨e3, e4⟩ := cutR (h1 l List.mem_cons_self) (h2 l' List.mem_cons_self) e1
      exact ⟨e3, by rw [e2, e4]⟩

/-! ### Statistics -/

/-- One line of the counts. -/
def countLine (name : Text) (count tot : ℕ) : Text :=
  name ++ ':' :: ' ' :: (showNat count ++ ' ' :: '(' :: ((nodePerc count tot).fixed 2 ++ t!"%)"))

theorem countLine_inj {name : Text} {c c' tot tot' : ℕ} (h : countLine name c tot = countLine name c' tot') :
    c = c' := by
  have h := List.append_cancel_left h
  simp only [List.cons.injEq, true_and] at h
  exact showNat_inj (cut (showNat_not (by decide) _) (showNat_not (by decide) _) h).1

theorem countLine_not {name : Text} (h : '\n' ∉ name) (c tot : ℕ) : '\n' ∉ countLine name c tot := by
  have h1 := showNat_not (c := '\n') (by decide) c
  have h2 := fixed_not (c := '\n') (by decide) (by decide) 2 (nodePerc c tot)
  simp only [countLine, List.mem_append, List.mem_cons, not_or]
  exact ⟨h, by decide, by decide, h1, by decide, by decide, h2, by decide⟩

/-- The first line of the text, without its line break. -/
def statsHead : Option String → Text
  | none => t!"Trie Stats:"
  | some n => t!"Trie Stats:" ++ (t!" (" ++ (n.toList ++ [')']))

theorem statsHead_inj {n n' : Option String} (h : statsHead n = statsHead n') : n = n' := by
  cases n <;> cases n' <;> simp only [statsHead] at h
  · rfl
  · have := congrArg List.length h; simp at this
  · have := congrArg List.length h; simp at this
  · have h := List.append_cancel_right (List.append_cancel_left (List.append_cancel_left h))
    rw [String.toList_inj.1 h]

/-- The lines of the text after the first one. -/
def statsLines (s : TrieStats) (tot : ℕ) : List Text :=
  [t!"Counts:", countLine t!"Empty" s.counts.empty tot, countLine t!"Hash" s.counts.hash tot,
    countLine t!"Branch" s.counts.branch tot, countLine t!"Extension" s.counts.ext tot,
    countLine t!"Leaf" s.counts.leaf tot, [], t!"Depth stats:",
    t!"Lowest depth: " ++ showNat s.lowestDepth, t!"Average leaf depth: " ++ s.avgLeaf.fixed 3,
    t!"Average hash depth: " ++ s.avgHash.fixed 3, [], []]

theorem statsLines_not (s : TrieStats) (tot : ℕ) : ∀ l ∈ statsLines s tot, '\n' ∉ l := by
  intro l hl
  simp only [statsLines, List.mem_cons, List.not_mem_nil, or_false] at hl
  rcases hl with rfl | rfl | rfl | rfl | rfl | rfl | rfl | rfl | rfl | rfl | rfl | rfl | rfl
  · decide
  · exact countLine_not (by decide) _ _
  · exact countLine_not (by decide) _ _
  · exact countLine_not (by decide) _ _
  · exact countLine_not (by decide) _ _
  · exact countLine_not (by decide) _ _
  · decide
  · decide
  · rw [List.mem_append, not_or]; exact ⟨by decide, showNat_not (by decide) _⟩
  · rw [List.mem_append, not_or]; exact ⟨by decide, fixed_not (by decide) (by decide) _ _⟩
  · rw [List.mem_append, not_or]; exact ⟨by decide, fixed_not (by decide) (by decide) _ _⟩
  · decide
  · decide

set_option maxRecDepth 8000 in
theorem stats_show (s : TrieStats) {tot : ℕ} (h : s.counts.total P = .ok tot) :
    s.show P = .ok (withLines (statsHead s.name) (statsLines s tot)) := by
  rw [TrieStats.show, NodeCounts.show, h]
  simp only [R_bind_ok, R_pure]
  cases hn : s.name <;>
  simp [statsHead, statsLines, withLines, countLine, showNodeCount, TrieStats.showDepths]

set_option maxRecDepth 8000 in
/-- C55: the statistics of a trie are printed without panic; the text shows the depths of all leaves
averaged, with an error of at most half a thousandth and one part in `2 ^ 22`. -/
theorem C55_show (t : Trie α) (name : Option String) (h1 : (t.nodes 0).length < 2 ^ 64)
    (h2 : ((t.nodes 0).map (·.2)).sum < 2 ^ 64) :
    ∃ s x, trieStats P t name = .ok s ∧ s.show P = .ok x ∧
      ∀ ty : NodeType, ty = .leaf ∨ ty = .hash → ∃ d, (t!"Average " ++
          (if ty = .leaf then t!"leaf" else t!"hash") ++ t!" depth: " ++ d ++ t!"\n") <:+: x ∧
        if depthsOf (t.nodes 0) ty = [] then d = t!"NaN" else
          ∃ q, IsDecimal 3 d q ∧ |q - (depthsOf (t.nodes 0) ty).sum / (depthsOf (t.nodes 0) ty).length| ≤
            ((depthsOf (t.nodes 0) ty).sum / (depthsOf (t.nodes 0) ty).length) / 2 ^ 22 := by
  obtain ⟨s, hs, ha, hb⟩ := C54_average (P := P) t name h1 h2
  have ht : s.counts.total P = .ok (1 + 16 * t.count .branch + t.count .ext) := by
    rw [C39_stats t name h1 h2] at hs
    cases hs
    exact C39_total t h1
  refine ⟨s, _, hs, stats_show s ht, fun ty hty => ?_⟩
  have key : ∀ {L : List ℕ} {x : F32}, IsAverage L x →
      if L = [] then x.fixed 3 = t!"NaN" else
        ∃ q, IsDecimal 3 (x.fixed 3) q ∧ |q - L.sum / L.length| ≤ (L.sum / L.length) / 2 ^ 22 := by
    intro L x h
    rcases h with ⟨h0, rfl⟩ | ⟨h0, q, rfl, hq⟩
    · rw [if_pos h0]; rfl
    · rw [if_neg h0]
      refine ⟨q, fixed_decimal 3 ?_, hq⟩
      have hy : (0 : ℚ) ≤ (L.sum : ℚ) / L.length := by positivity
      have := (abs_le.1 hq).1
      have : (L.sum : ℚ) / L.length / 2 ^ 22 ≤ (L.sum : ℚ) / L.length :=
        div_le_self hy (by norm_num)
      linarith
  rcases hty with rfl | rfl
  · refine ⟨s.avgLeaf.fixed 3, ?_, key ha⟩
    refine ⟨withLines (statsHead s.name) ((statsLines s (1 + 16 * t.count .branch + t.count .ext)).take 9) ++ t!"\n",
      t!"Average hash depth: " ++ s.avgHash.fixed 3 ++ t!"\n\n", ?_⟩
    simp [statsLines, withLines]
  · refine ⟨s.avgHash.fixed 3, ?_, key hb⟩
    refine ⟨withLines (statsHead s.name) ((statsLines s (1 + 16 * t.count .branch + t.count .ext)).take 10) ++ t!"\n", t!"\n", ?_⟩
    simp [statsLines, withLines]

/-- C55: the text of statistics determines the name, whatever characters it has, all counts, the lowest
depth and the printed averages. -/
theorem C55_stats {s s' : TrieStats} {x : Text} (h : s.show P = .ok x) (h' : s'.show P = .ok x) :
    s.name = s'.name ∧ s.counts = s'.counts ∧ s.lowestDepth = s'.lowestDepth ∧
      s.avgLeaf.fixed 3 = s'.avgLeaf.fixed 3 ∧ s.avgHash.fixed 3 = s'.avgHash.fixed 3 := by
  have tot : ∀ {s : TrieStats}, s.show P = .ok x → ∃ n, s.counts.total P = .ok n := by
    intro s h
    simp only [TrieStats.show, NodeCounts.show, R_bind_eq_ok] at h
    obtain ⟨_, ⟨n, hn, _⟩, _⟩ := h
    exact ⟨n, hn⟩
  obtain ⟨n, hn⟩ := tot h
  obtain ⟨n', hn'⟩ := tot h'
  rw [stats_show s hn] at h
  rw [stats_show s' hn', ← h] at h'
  have e := withLines_inj (ls := statsLines s' n') (ls' := statsLines s n) rfl (statsLines_not s' n') (statsLines_not s n) (Except.ok.inj h')
  obtain ⟨e1, e2⟩ := e
  simp only [statsLines, List.cons.injEq, true_and, and_true] at e2
  obtain ⟨c1, c2, c3, c4, c5, c6, c7, c8⟩ := e2
  have c1 := countLine_inj c1
  have c2 := countLine_inj c2
  have c3 := countLine_inj c3
  have c4 := countLine_inj c4
  have c5 := countLine_inj c5
  refine ⟨(statsHead_inj e1).symm, ?_, (showNat_inj (List.append_cancel_left c6)).symm,
    (List.append_cancel_left c7).symm, (List.append_cancel_left c8).symm⟩
  cases hc : s.counts
  cases hc' : s'.counts
  rw [hc, hc'] at c1 c2 c3 c4 c5
  simp only at c1 c2 c3 c4 c5
  rw [c1, c2, c3, c4, c5]

/-! ### Comparisons -/

theorem showRatio_inj {x y : ℕ × ℕ} (h : showRatio x = showRatio y) : x = y := by
  simp only [showRatio, List.append_assoc] at h
  obtain ⟨e1, h⟩ := cut (c := ' ') (showNat_not (by decide) _) (showNat_not (by decide) _) h
  replace h := List.append_cancel_left (as := t!"/ ") h
  obtain ⟨e2, -⟩ := cut (c := ' ') (showNat_not (by decide) _) (showNat_not (by decide) _) h
  exact Prod.ext (showNat_inj e1) (showNat_inj e2)

theorem showRatioF_inj {a b c d : F32} (h : showRatioF a b = showRatioF c d) :
    a.fixed 3 = c.fixed 3 ∧ b.fixed 3 = d.fixed 3 := by
  simp only [showRatioF, List.append_assoc] at h
  obtain ⟨e1, h⟩ := cut (c := ' ') (fixed_not (by decide) (by decide) _ _)
    (fixed_not (by decide) (by decide) _ _) h
  replace h := List.append_cancel_left (as := t!"/ ") h
  obtain ⟨e2, -⟩ := cut (c := ' ') (fixed_not (by decide) (by decide) _ _)
    (fixed_not (by decide) (by decide) _ _) h
  exact ⟨e1, e2⟩

theorem showRatio_not {c : Char} (hd : c.isDigit = false) (hc : c ∉ t!".NaNinf / (%)") (x : ℕ × ℕ) :
    c ∉ showRatio x := by
  have h1 := showNat_not hd x.1
  have h2 := showNat_not hd x.2
  have h3 := fixed_not hd (by simp at hc; simp; grind) 3 (percOf (F32.ofNat x.1) (F32.ofNat x.2))
  simp at hc
  simp [showRatio]
  grind

theorem showRatioF_not {c : Char} (hd : c.isDigit = false) (hc : c ∉ t!".NaNinf / (%)") (a b : F32) :
    c ∉ showRatioF a b := by
  have h1 := fixed_not hd (by simp at hc; simp; grind) 3 a
  have h2 := fixed_not hd (by simp at hc; simp; grind) 3 b
  have h3 := fixed_not hd (by simp at hc; simp; grind) 3 (percOf a b)
  simp at hc
  simp [showRatioF]
  grind

/-- The lines of a comparison. -/
def compLines (c : NodeComparison × DepthComparison) : List Text :=
  [t!"Non-empty: " ++ showRatio c.1.nonEmpty, t!"Total empty: " ++ showRatio c.1.empty,
    t!"Total hash: " ++ showRatio c.1.hash, t!"Total branch: " ++ showRatio c.1.branch,
    t!"Total extension: " ++ showRatio c.1.ext, t!"Total leaf: " ++ showRatio c.1.leaf, [],
    t!"Depth comparison: " ++ (t!"Lowest depth: " ++ showRatio c.2.lowest),
    t!"Avg leaf depth: " ++ showRatioF (avgOf c.2.avgLeaf.1) (avgOf c.2.avgLeaf.2),
    t!"Avg hash depth: " ++ showRatioF (avgOf c.2.avgHash.1) (avgOf c.2.avgHash.2), [], []]

theorem lines_assoc (a0 a1 a2 a3 a4 a5 a6 a7 a8 a9 b0 b7 : Text)
    (r0 r1 r2 r3 r4 r5 r6 r7 r8 r9 : Text) :
    b0 ++ (a0 ++ r0 ++ ['\n'] ++ a1 ++ r1 ++ ['\n'] ++ a2 ++ r2 ++ ['\n'] ++ a3 ++ r3 ++ ['\n'] ++
      a4 ++ r4 ++ ['\n'] ++ a5 ++ r5 ++ ['\n'] ++ a6 ++ r6 ++ ['\n']) ++ ['\n'] ++
      b7 ++ (a7 ++ r7 ++ ['\n'] ++ a8 ++ r8 ++ ['\n'] ++ a9 ++ r9 ++ ['\n']) ++ ['\n'] =
    withLines (b0 ++ (a0 ++ r0)) [a1 ++ r1, a2 ++ r2, a3 ++ r3, a4 ++ r4, a5 ++ r5, a6 ++ r6, [],
      b7 ++ (a7 ++ r7), a8 ++ r8, a9 ++ r9, [], []] := by
  simp only [withLines, List.append_assoc, List.cons_append, List.nil_append]

theorem comp_show (c : NodeComparison × DepthComparison) : showComparison c =
    withLines (t!"Node comparison: " ++ (t!"Total nodes: " ++ showRatio c.1.tot)) (compLines c) := by
  unfold showComparison NodeComparison.show DepthComparison.show compLines
  exact lines_assoc _ _ _ _ _ _ _ _ _ _ _ _ _ _ _ _ _ _ _ _ _ _

theorem compLines_not (c : NodeComparison × DepthComparison) : ∀ l ∈ compLines c, '\n' ∉ l := by
  intro l hl
  simp only [compLines, List.mem_cons, List.not_mem_nil, or_false] at hl
  have k : ∀ (a : Text) (x), '\n' ∉ a → '\n' ∉ a ++ showRatio x := fun a x h => by
    rw [List.mem_append, not_or]; exact ⟨h, showRatio_not (by decide) (by decide) _⟩
  have k' : ∀ (a : Text) (x y), '\n' ∉ a → '\n' ∉ a ++ showRatioF x y := fun a x y h => by
    rw [List.mem_append, not_or]; exact ⟨h, showRatioF_not (by decide) (by decide) _ _⟩
  rcases hl with rfl | rfl | rfl | rfl | rfl | rfl | rfl | rfl | rfl | rfl | rfl | rfl
  · exact k _ _ (by decide)
  · exact k _ _ (by decide)
  · exact k _ _ (by decide)
  · exact k _ _ (by decide)
  · exact k _ _ (by decide)
  · exact k _ _ (by decide)
  · decide
  · rw [← List.append_assoc]; exact k _ _ (by decide)
  · exact k' _ _ _ (by decide)
  · exact k' _ _ _ (by decide)
  · decide
  · decide

/-- C55: the text of a comparison determines all pairs of counts, the pair of lowest depths and the
printed averages. -/
theorem C55_comparison {c c' : NodeComparison × DepthComparison} (h : showComparison c = showComparison c') :
    c.1 = c'.1 ∧ c.2.lowest = c'.2.lowest ∧
      (avgOf c.2.avgLeaf.1).fixed 3 = (avgOf c'.2.avgLeaf.1).fixed 3 ∧
      (avgOf c.2.avgLeaf.2).fixed 3 = (avgOf c'.2.avgLeaf.2).fixed 3 ∧
      (avgOf c.2.avgHash.1).fixed 3 = (avgOf c'.2.avgHash.1).fixed 3 ∧
      (avgOf c.2.avgHash.2).fixed 3 = (avgOf c'.2.avgHash.2).fixed 3 := by
  rw [comp_show, comp_show] at h
  obtain ⟨e1, e2⟩ := withLines_inj (ls := compLines c) (ls' := compLines c') rfl (compLines_not c) (compLines_not c') h
  have c0 := showRatio_inj (List.append_cancel_left (List.append_cancel_left e1))
  simp only [compLines, List.cons.injEq, true_and, and_true] at e2
  obtain ⟨c1, c2, c3, c4, c5, c6, c7, c8, c9⟩ := e2
  have c1 := showRatio_inj (List.append_cancel_left c1)
  have c2 := showRatio_inj (List.append_cancel_left c2)
  have c3 := showRatio_inj (List.append_cancel_left c3)
  have c4 := showRatio_inj (List.append_cancel_left c4)
  have c5 := showRatio_inj (List.append_cancel_left c5)
  have c6 := showRatio_inj (List.append_cancel_left c6)
  have c7 := showRatio_inj (List.append_cancel_left (List.append_cancel_left c7))
  have c8 := showRatioF_inj (List.append_cancel_left c8)
  have c9 := showRatioF_inj (List.append_cancel_left c9)
  refine ⟨?_, c7, c8.1, c8.2, c9.1, c9.2⟩
  cases hc : c.1
  cases hc' : c'.1
  rw [hc, hc'] at c0 c1 c2 c3 c4 c5 c6
  simp only at c0 c1 c2 c3 c4 c5 c6
  rw [c0, c1, c2, c3, c4, c5, c6]

/-! ### Examples -/

/-- A trie with three leaves. -/
def statsEx : Trie Unit :=
  .branch () (fun i => if i = 0 then .leaf () ⟨1, 3⟩ [7] else if i = 1 then
    .ext () ⟨1, 5⟩ (.branch () (fun i => if i = 2 then .leaf () ⟨0, 0⟩ [8] else
      if i = 9 then .leaf () ⟨0, 0⟩ [9] else .empty ()) []) else .empty ()) []

/-- The same trie with one sub-trie replaced by a hash. -/
def statsEx' : Trie Unit :=
  .branch () (fun i => if i = 0 then .leaf () ⟨1, 3⟩ [7] else if i = 1 then .hash () (kec0 [5]) else
    .empty ()) []

-- C54, C55: the printed statistics.
example : (do let s ← trieStats .release statsEx (some "main"); s.show .release : R Text) =
    .ok t!"Trie Stats: (main)\nCounts:\nEmpty: 28 (82.35%)\nHash: 0 (0.00%)\nBranch: 2 (5.88%)\nExtension: 1 (2.94%)\nLeaf: 3 (8.82%)\n\nDepth stats:\nLowest depth: 3\nAverage leaf depth: 2.333\nAverage hash depth: NaN\n\n" := by
  decide +kernel

-- C54, C55: the printed comparison; without hash nodes in the second trie some percentages are no
-- numbers.
example : (do
      let s ← trieStats .release statsEx' none
      let s' ← trieStats .release statsEx none
      let c ← s.compare .release s'
      return showComparison c : R Text) =
    .ok t!"Node comparison: Total nodes: 17 / 34 (50.000%)\nNon-empty: 3 / 6 (50.000%)\nTotal empty: 14 / 28 (50.000%)\nTotal hash: 1 / 0 (inf%)\nTotal branch: 1 / 2 (50.000%)\nTotal extension: 0 / 1 (0.000%)\nTotal leaf: 1 / 3 (33.333%)\n\nDepth comparison: Lowest depth: 1 / 3 (33.333%)\nAvg leaf depth: 1.000 / 2.333 (42.857%)\nAvg hash depth: 1.000 / NaN (NaN%)\n\n" := by
  decide +kernel

-- C55: two sets of statistics with the same printed averages and depths, but different names.
example : (do let s ← trieStats .release statsEx (some "x)\nCounts:"); s.show .release : R Text) ≠
    (do let s ← trieStats .release statsEx (some "x"); s.show .release : R Text) := by
  decide +kernel

end EthTrie
