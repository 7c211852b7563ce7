import Verif.Props.Keys
import Verif.Props.KeyConv
import Verif.Debug.Text

/-!
# Properties C02, C03, C06, C08, C11 at the limits

What the operations on keys return or how they panic where C02, C03, C06 and C11 fail, and
the conversion of C08 that fails for long keys.
-/

namespace EthTrie

open Spec Nibbles

set_option exponentiation.threshold 600

/-! ## C02 -/

/-- C02 without overflow checks, for every `usize` index: past the end it panics, except within
`128 - count` of `2^64`, where the index arithmetic wraps around and the unused zero bits are read. -/
theorem C02_exact_release (n : Nibbles) (hn : n.Fits) (i : Nat) (hi : i < 2 ^ 64) :
    n.getNibble .release i =
      match n.toList[i]? with
      | some d => .ok d.val
      | none => if i < 2 ^ 64 - (128 - n.count) then .error .indexOutOfBounds else .ok 0 := by
  by_cases h : i < n.toList.length
  · rw [C02_get_nibble _ n hn i h, List.getElem?_eq_getElem h]
  rw [List.getElem?_eq_none (by omega)]
  simp only
  have hc := hn.2
  by_cases h2 : i < 2 ^ 64 - (128 - n.count)
  · rw [if_pos h2]
    exact C02_get_nibble_panics_release_partial n hn i (by omega) (by omega)
  rw [if_neg h2]
  rw [toList_length] at h
  have hlt : n.count < i := by omega
  have hw : n.packed.toNat < 16 ^ n.count := hn.1
  unfold getNibble
  have wrap : usub .release n.count i = .ok (n.count + 2 ^ 64 - i) := by
    unfold usub
    rw [if_neg (by omega), if_neg (by decide)]
  rw [wrap, R_bind_ok, usub_ok (by omega), R_bind_ok]
  obtain ⟨j, hj⟩ : ∃ j, j = n.count + 2 ^ 64 - i - 1 := ⟨_, rfl⟩
  rw [← hj]
  have hb : j / 2 < 64 := by omega
  simp only [U512.byte, if_pos hb, R_bind_ok]
  have hev : isEven j = decide (j % 2 = 0) := isEven_eq j
  have hp : (16 : Nat) ^ n.count ≤ 16 ^ j := Nat.pow_le_pow_right (by decide) (by omega)
  have e256 : (256 : Nat) ^ (j / 2) = 16 ^ (2 * (j / 2)) := by rw [Nat.pow_mul]
  rw [hev, e256]
  rcases Nat.mod_two_eq_zero_or_one j with h0 | h1
  · have hj2 : 2 * (j / 2) = j := by omega
    simp only [h0, decide_true, R_pure]
    rw [hj2, Nat.div_eq_of_lt (by omega), Nat.zero_mod, Nat.zero_and]
  · simp only [h1, decide_false, R_pure, Nat.one_ne_zero]
    refine congrArg Except.ok ?_
    have hj2 : 2 * (j / 2) + 1 = j := by omega
    have hlt16 : n.packed.toNat / 16 ^ (2 * (j / 2)) < 16 := by
      rw [Nat.div_lt_iff_lt_mul (Nat.pow_pos (by decide)), ← Nat.pow_succ', Nat.succ_eq_add_one, hj2]
      omega
    generalize n.packed.toNat / 16 ^ (2 * (j / 2)) = w at hlt16
    rw [Nat.mod_eq_of_lt (by omega), Nat.shiftRight_eq_div_pow]
    have key : ∀ b, b < 16 → (b &&& 0b11110000) / 2 ^ 4 = 0 := by decide
    exact key _ hlt16

example : exKey.getNibble .release (2 ^ 64 - 125) = .ok 0 := by decide +kernel
example : exKey.getNibble .release (2 ^ 64 - 126) = .error .indexOutOfBounds := by decide +kernel

/-! ## C03 -/

/-- C03: every request within the key, including those for all 128 nibbles of a full key, which
panic in every build. -/
theorem C03_exact (P : Profile) (n : Nibbles) (hn : n.Fits) :
    (∀ s e, s ≤ e → e ≤ n.count → rlist (n.getNibbleRange P s e) =
      if e - s = 128 then .error .overflow else .ok ((n.toList.take e).drop s)) ∧
    (∀ k, k ≤ n.count → rlist (n.getNextNibbles P k) =
      if k = 128 then .error .overflow else .ok (n.toList.take k)) ∧
    (∀ i, i ≤ n.count → rlist2 (n.splitAtIdx P i) =
      if n.count - i = 128 then .error .overflow else .ok (n.toList.take i, n.toList.drop i)) ∧
    (∀ i, i ≤ n.count → rlist (n.splitAtIdxPrefix P i) =
      if i = 128 then .error .overflow else .ok (n.toList.take i)) ∧
    (∀ i, i ≤ n.count → rlist (n.splitAtIdxPostfix P i) =
      if n.count - i = 128 then .error .overflow else .ok (n.toList.drop i)) ∧
    (∀ k, rlist (n.truncateFront P k) =
      if min k n.count = 128 then .error .overflow else .ok (n.toList.drop k)) ∧
    (∀ k, rlist (n.truncateBack P k) =
      if min k n.count = 128 then .error .overflow
      else .ok (n.toList.take (n.toList.length - k))) ∧
    (∀ k, k ≤ n.count → rlist2 (n.popNibblesFront P k) =
      if k = 128 then .error .overflow else .ok (n.toList.take k, n.toList.drop k)) ∧
    (∀ k, k ≤ n.count → rlist2 (n.popNibblesBack P k) =
      if k = 128 then .error .overflow
      else .ok ((n.toList.drop (n.toList.length - k)).reverse,
        n.toList.take (n.toList.length - k))) := by
  obtain ⟨g1, g2, g3, g4, g5, g6, g7, g8, g9⟩ := C03_slicing_partial P n hn
  have hc := hn.2
  have hm : ∀ k, 128 ≤ k → k < 2 ^ 62 → ∀ β (f : U512 → R β),
      (umul P k 4 >>= fun a => createMaskOf1s a >>= f) = .error .overflow := by
    intro k h1 h2 β f
    rw [umul_ok (by omega), R_bind_ok, createMask_err (by omega), R_bind_err]
  have hr : ∀ s e, s ≤ e → e ≤ n.count → e - s = 128 →
      n.getNibbleRange P s e = .error .overflow := by
    intro s e h1 h2 h3
    unfold getNibbleRange
    rw [usub_ok h1, R_bind_ok, usub_ok h2, R_bind_ok, umul_ok (by omega), R_bind_ok, hm _ (by omega) (by omega)]
  have hmt : ∀ k, n.minTruncate k = min k n.count := by
    intro k
    unfold minTruncate
    by_cases h : n.count ≥ k
    · simp [h]
    · simp [h, Nat.min_eq_right (by omega : n.count ≤ k)]
  refine ⟨fun s e h1 h2 => ?_, fun k h1 => ?_, fun i h1 => ?_, fun i h1 => ?_, fun i h1 => ?_,
    fun k => ?_, fun k => ?_, fun k h1 => ?_, fun k h1 => ?_⟩
  · split
    · rw [hr s e h1 h2 ‹_›]; rfl
    · exact g1 s e h1 h2 (by omega)
  · split
    · rw [getNextNibbles, hr 0 k (by omega) h1 (by omega)]; rfl
    · exact g2 k h1 (by omega)
  · split
    · unfold splitAtIdx
      rw [usub_ok h1, R_bind_ok, hm _ (by omega) (by omega)]; rfl
    · exact g3 i h1 (by omega)
  · split
    · unfold splitAtIdxPrefix
      rw [usub_ok h1, R_bind_ok, umul_ok (by omega), R_bind_ok, hm _ (by omega) (by omega)]; rfl
    · exact g4 i h1 (by omega)
  · split
    · unfold splitAtIdxPostfix
      rw [usub_ok h1, R_bind_ok, hm _ (by omega) (by omega)]; rfl
    · exact g5 i h1 (by omega)
  · split
    · rename_i h
      unfold truncateFront
      simp only [hmt, h]
      rw [usub_ok (by omega), R_bind_ok, umul_ok (by omega), R_bind_ok, hm _ (by omega) (by omega)]; rfl
    · exact g6 k (by omega)
  · split
    · rename_i h
      unfold truncateBack
      simp only [hmt, h]
      rw [umul_ok (by omega), R_bind_ok, R_bind_ok, createMask_err (by omega)]; rfl
    · exact g7 k (by omega)
  · split
    · unfold popNibblesFront
      rw [hr 0 k (by omega) h1 (by omega)]; rfl
    · exact g8 k h1 (by omega)
  · split
    · unfold popNibblesBack
      rw [usub_ok h1, R_bind_ok, hr _ _ (by omega) (by omega) (by omega)]; rfl
    · exact g9 k h1 (by omega)

/-- C03 without overflow checks: a range that reaches past the end does not panic; it is returned
as that many zeros, whatever the key is.  (Indices below `2^62 - 128`; a range that ends before it
starts, or has 128 nibbles or more, panics.) -/
theorem C03_exact_release (n : Nibbles) (hn : n.Fits) (s e : Nat) (he : n.count < e) (he2 : e < 2 ^ 62 - 128)
    (hs : s < 2 ^ 62 - 128) :
    rlist (n.getNibbleRange .release s e) =
      if s ≤ e ∧ e - s < 128 then .ok (List.replicate (e - s) 0) else .error .overflow := by
  have hc := hn.2
  have wrap : ∀ a b, a < b → usub .release a b = .ok (a + 2 ^ 64 - b) := by
    intro a b h
    unfold usub
    rw [if_neg (by omega), if_neg (by decide)]
  have mulwrap : ∀ a, 2 ^ 64 ≤ a * 4 → umul .release a 4 = .ok (a * 4 % 2 ^ 64) := by
    intro a h
    unfold umul
    rw [if_neg (by omega), if_neg (by decide)]
  have hshift : ∃ sh, umul .release (n.count + 2 ^ 64 - e) 4 = .ok sh ∧ 512 ≤ sh :=
    ⟨_, mulwrap _ (by omega), by omega⟩
  obtain ⟨sh, h1, h2⟩ := hshift
  unfold getNibbleRange
  by_cases hse : s ≤ e
  · rw [usub_ok hse, R_bind_ok, wrap _ _ he, R_bind_ok, h1, R_bind_ok, umul_ok (by omega), R_bind_ok]
    by_cases hl : e - s < 128
    · rw [if_pos ⟨hse, hl⟩, createMask_ok (by omega), R_bind_ok]
      have hz : ∀ x y : U512, (x &&& (y <<< sh)) >>> sh = 0#512 := by
        intro x y
        rw [BitVec.ushiftRight_eq_zero (by omega)]
      simp only [hz, R_pure]
      have e1 : (⟨e - s, 0#512⟩ : Nibbles) = ofList (List.replicate (e - s) 0) := by
        refine eq_ofList (by simp; omega) (by simp) ?_
        have := value_replicate_append (e - s) []
        simp only [List.append_nil] at this
        rw [this]
        rfl
      rw [e1]
      exact rlist_ok (by simp; omega)
    · rw [if_neg (fun h => hl h.2), createMask_err (by omega)]
      rfl
  · rw [if_neg (fun h => hse h.1), wrap _ _ (by omega), R_bind_ok, wrap _ _ he, R_bind_ok, h1, R_bind_ok,
      mulwrap _ (by omega), R_bind_ok, createMask_err (by omega)]
    rfl

example : rlist (exKey.getNibbleRange .release 1 5) = .ok [0, 0, 0, 0] :=
  C03_exact_release exKey (by decide +kernel) 1 5 (by decide) (by decide) (by decide)

/-! ## C06 -/

/-- C06: the differing index, for all pairs of keys; it panics only if both have 128 nibbles. -/
theorem C06_exact (P : Profile) (a b : Nibbles) (ha : a.Fits) (hb : b.Fits) :
    (∃ i, findDiffDifferentLengths P a b = .ok i ∧ IsCommonPrefixLength a.toList b.toList i ∧
      ¬ (a.count = 128 ∧ b.count = 128)) ∨
    (findDiffDifferentLengths P a b = .error .overflow ∧ a.count = 128 ∧ b.count = 128) := by
  have h1 := ha.2
  have h2 := hb.2
  by_cases h : min a.count b.count < 128
  · obtain ⟨i, g1, g2⟩ := C06_find_differing_idx_partial P a b ha hb h
    exact .inl ⟨i, g1, g2, by omega⟩
  · refine .inr ⟨?_, by omega, by omega⟩
    unfold findDiffDifferentLengths getNibbleRange
    have e1 : min a.count b.count = 128 := by omega
    simp only [e1]
    rw [usub_ok (by omega), R_bind_ok, usub_ok (by omega), R_bind_ok, umul_ok (by omega), R_bind_ok,
      umul_ok (by omega), R_bind_ok, createMask_err (by omega)]
    rfl

/-! ## C08 -/

/-- C08: `try_into_u256` returns the number denoted by the digits for keys of at most 64 nibbles.
For longer keys it is an error with a message that shows the length and the digits of the key. -/
theorem C08_try_into_u256 (P : Profile) (n : Nibbles) (hn : n.Fits) :
    (n.toList.length ≤ 64 →
      ∃ v : BitVec 256, n.tryIntoU256 P = .ok (.ok v) ∧ v.toNat = value n.toList) ∧
    (64 < n.toList.length → n.tryIntoU256 P = .ok (.error (
      "Tried getting a U256 from Nibbles that were too big! (Nibbles { count: ".toList ++
      Nat.toDigits 10 n.toList.length ++ ", packed: \"0x".toList ++
      n.toList.map (fun d => (hexAlphabet false).getD d.val '?') ++ "\" })".toList))) := by
  obtain ⟨l, hl, rfl⟩ := wf_cases hn.1 hn.2
  rw [toList_ofList hl]
  unfold Nibbles.tryIntoU256
  constructor
  · intro h
    have hv := value_lt l
    rw [sixteen_pow] at hv
    have hv : value l < 2 ^ 256 :=
      lt_of_lt_of_le hv (Nat.pow_le_pow_right (by decide) (by omega))
    refine ⟨BitVec.ofNat 256 (value l), ?_, ?_⟩
    · have : decide ((ofList l).count ≤ 64) = true := decide_eq_true h
      rw [this, ofList_packed hl]
      simp only [hv, if_true]
    · rw [BitVec.toNat_ofNat, Nat.mod_eq_of_lt hv]
  · intro h
    have : decide ((ofList l).count ≤ 64) = false := decide_eq_false (by rw [ofList_count]; omega)
    rw [this]
    have e : l.map (fun d => (hexAlphabet false).getD d.val '?') = l.map (hexChar false) := by
      apply List.map_congr_left
      intro d _
      rw [List.getD_eq_getElem?_getD, hexChar_alphabet]
      rfl
    simp only [Nibbles.debug, show_ok hn, keyText, toList_ofList hl, e, showNat, ofList_count]
    simp [pure, Except.pure, bind, Except.bind]

/-- C08 for every pair of a count and a packed number: when `try_into_u256` panics. -/
theorem C08_try_into_u256_panics (P : Profile) (n : Nibbles) :
    (n.count ≤ 64 → 2 ^ 256 ≤ n.packed.toNat → n.tryIntoU256 P = .error .expectFailed) ∧
    (128 < n.count → n.count < 2 ^ 64 - 1 → n.tryIntoU256 P =
      .error (if P.overflowChecks then .overflow else .indexOutOfBounds)) := by
  unfold Nibbles.tryIntoU256
  constructor
  · intro h1 h2
    rw [decide_eq_true h1]
    simp only [show ¬ n.packed.toNat < 2 ^ 256 by omega, if_false]
  · intro h1 h2
    rw [decide_eq_false (by omega)]
    simp only [Nibbles.debug, Nibbles.show, asHexStr, minBytes, uadd, usub, sliceFrom,
      show n.count + 1 < 2 ^ 64 by omega, if_true, bind, Except.bind, pure, Except.pure,
      show ¬ (n.count + 1) / 2 ≤ 64 by omega, if_false]
    by_cases h : P.overflowChecks
    · simp only [h, if_true]
    · have hl : n.packed.toBE.length = 64 := by simp [U512.toBE]
      simp only [h, if_false, hl, Bool.false_eq_true,
        show ¬ 64 + 2 ^ 64 - (n.count + 1) / 2 ≤ 64 by omega]

example : Nibbles.tryIntoU256 .debug ⟨3, 0x0a7#512⟩ = .ok (.ok 0xa7#256) := by decide +kernel
example : Nibbles.tryIntoU256 .debug ⟨66, 0x0a7#512⟩ = .ok (.error
    ("Tried getting a U256 from Nibbles that were too big! (Nibbles { count: 66, packed: " ++
      "\"0x0000000000000000000000000000000000000000000000000000000000000000a7\" })").toList) := by
  decide +kernel
example : Nibbles.tryIntoU256 .debug ⟨129, 0x0a7#512⟩ = .error .overflow := by decide +kernel
example : Nibbles.tryIntoU256 .release ⟨1, (1#512 <<< 256)⟩ = .error .expectFailed := by
  decide +kernel

/-! ## C11 -/

/-- C11: what decoding returns for every byte string. The flags are the upper half of the first byte
(bit 0: odd, bit 1: leaf). -/
theorem C11_exact :
    (∀ bs : Bytes, 33 < bs.length → fromHexPrefixEncoding bs =
      .ok (.error (.tooLong (hexEncode false bs) bs.length))) ∧
    fromHexPrefixEncoding [] = .error .indexOutOfBounds ∧
    (∀ (b : UInt8) (rest : Bytes), rest.length ≤ 32 → 3 < b.toNat / 16 →
      fromHexPrefixEncoding (b :: rest) = .ok (.error (.invalidFlags (b.toNat / 16)))) ∧
    (∀ (b : UInt8) (rest : Bytes), rest.length ≤ 32 → b.toNat / 16 ≤ 3 →
      ∃ n, fromHexPrefixEncoding (b :: rest) = .ok (.ok n) ∧ n.WF ∧
        n.toList = (if b.toNat / 16 % 2 = 1 then [Fin.ofNat 16 b.toNat] else []) ++
          nibblesOfBytes rest ++ if b.toNat / 16 / 2 = 1 then [1, 0] else []) := by
  refine ⟨fun _ h => fromHexPrefix_tooLong h, rfl, fun _ _ h1 h2 => fromHexPrefix_invalid h1 h2,
    fun b rest h1 h2 => ⟨_, fromHexPrefix_ok h1 (by omega), ofList_WF _, ?_⟩⟩
  rw [toList_ofList]
  · rfl
  · unfold hpDecode
    simp only [List.length_append, nibblesOfBytes_length]
    split <;> split <;> simp <;> omega

example : fromHexPrefixEncoding [0x2f, 0xa5] = .ok (.ok ⟨4, 0xa510#512⟩) := by decide +kernel

end EthTrie
