import Verif.Nibbles.Lemmas3

/-!
# Properties C01 – C06 and C46: keys as nibble sequences

The specification of a key is the list `Nibbles.toList` of its base-16 digits
(`Spec.digits`, defined by division with remainder, independently of the bit operations of the
model) together with the representation invariant `Nibbles.WF`.
-/

namespace EthTrie
open Spec Nibbles

set_option exponentiation.threshold 600

/-- The key capacity of `U512`. -/
abbrev Nibbles.Fits (n : Nibbles) : Prop := n.WF ∧ n.count ≤ 128

/-- A concrete 3-nibble key used in the examples: `0x0a5`. -/
def exKey : Nibbles := ⟨3, 0xa5#512⟩
/-- The key `0x0a71`. -/
def exKey2 : Nibbles := ⟨4, 0xa71#512⟩

example : exKey.Fits := by decide +kernel
example : exKey2.Fits := by decide +kernel
example : exKey.toList = [0, 10, 5] := by decide +kernel

/-! ## C01 -/

/-- C01 (equality): `==` on keys is equality of nibble sequences. -/
theorem C01_eq_iff (a b : Nibbles) (ha : a.WF) (hb : b.WF) : a = b ↔ a.toList = b.toList :=
  ⟨fun h => h ▸ rfl, toList_WF_inj ha hb⟩

example : exKey ≠ (⟨2, 0xa5#512⟩ : Nibbles) ∧ (⟨2, 0xa5#512⟩ : Nibbles).WF := by decide +kernel

/-- C01 (sequences): every nibble sequence up to the capacity is denoted by exactly one
well-formed key. -/
theorem C01_exists_unique (l : Key) (h : l.length ≤ 128) :
    ∃ n : Nibbles, (n.WF ∧ n.toList = l) ∧ ∀ m : Nibbles, m.WF → m.toList = l → m = n :=
  ⟨ofList l, ⟨ofList_WF l, toList_ofList h⟩, fun m hm e => by rw [← ofList_toList hm, e]⟩

theorem createMask_cases {amt : Nat} {m : U512} (h : createMaskOf1s amt = .ok m) :
    amt < 512 ∧ m = ones amt := by
  by_cases ha : amt < 512
  · rw [createMask_ok ha] at h
    exact ⟨ha, (Except.ok.inj h).symm⟩
  · rw [createMask_err (by omega)] at h
    cases h

theorem umul_le {P : Profile} {a b c : Nat} (h : umul P a b = .ok c) : c ≤ a * b := by
  unfold umul at h
  split at h
  · exact (Except.ok.inj h) ▸ Nat.le_refl _
  · split at h
    · cases h
    · exact (Except.ok.inj h) ▸ Nat.mod_le _ _

theorem bind_ok_inv {α β : Type} {m : R α} {f : α → R β} {b : β} (h : (m >>= f) = .ok b) :
    ∃ a, m = .ok a ∧ f a = .ok b := by
  cases m with
  | error e => cases h
  | ok a => exact ⟨a, rfl, h⟩

theorem getNibbleRange_WF {P : Profile} {n r : Nibbles} {s e : Nat}
    (h : n.getNibbleRange P s e = .ok r) : r.WF := by
  unfold getNibbleRange at h
  obtain ⟨rc, -, h⟩ := bind_ok_inv h
  obtain ⟨x, -, h⟩ := bind_ok_inv h
  obtain ⟨sh, -, h⟩ := bind_ok_inv h
  obtain ⟨y, h4, h⟩ := bind_ok_inv h
  obtain ⟨mk, h5, h⟩ := bind_ok_inv h
  obtain ⟨hy, rfl⟩ := createMask_cases h5
  have h := (Except.ok.inj h).symm
  subst h
  rw [WF]
  simp only
  rw [range_toNat, sixteen_pow]
  have := umul_le h4
  exact lt_of_lt_of_le (Nat.mod_lt _ (Nat.pow_pos (by decide)))
    (Nat.pow_le_pow_right (by decide) (by omega))

/-- C01 (constructors): every constructor returns a well-formed key. -/
theorem C01_constructors_wf :
    Nibbles.default.WF ∧
    (∀ w, w ≤ 512 → ∀ x : BitVec w, (ofUInt w x).WF ∧ (ofUInt w x).bytePadded.WF) ∧
    (∀ bs r, fromBytesBE bs = .ok r → r.WF) ∧
    (∀ bs r, fromBytesLE bs = .ok r → r.WF) ∧
    (∀ d r, fromNibble d = .ok r → r.WF) ∧
    (∀ s r, fromStr s = .ok r → r.WF) ∧
    (∀ bs r, fromHexPrefixEncoding bs = .ok (.ok r) → r.WF) ∧
    (∀ h, (fromH256BE h).WF ∧ (fromH256LE h).WF) := by
  refine ⟨by decide +kernel, ?_, ?_, ?_, ?_, ?_, ?_, ?_⟩
  · intro w hw x
    obtain ⟨l, hl, -, -, e⟩ := ofUInt_ok hw x
    rw [e, bytePadded_ok hl]
    exact ⟨ofList_WF _, ofList_WF _⟩
  · intro bs r h
    unfold fromBytesBE fromBytes at h
    split at h
    · cases h
    · split at h
      · cases h
      · rw [fromBE_eq_ofList (bs := bs) (by omega) (by omega)] at h
        exact (Except.ok.inj h) ▸ ofList_WF _
  · intro bs r h
    unfold fromBytesLE fromBytes at h
    rw [fromLE_eq] at h
    split at h
    · cases h
    · split at h
      · cases h
      · rw [fromBE_eq_ofList (bs := bs.reverse) (by rw [List.length_reverse]; omega)
          (by rw [List.length_reverse]; omega)] at h
        exact (Except.ok.inj h) ▸ ofList_WF _
  · intro d r h
    by_cases hd : d < 16
    · rw [fromNibble_ok hd] at h
      exact (Except.ok.inj h) ▸ ofList_WF _
    · have : ¬ d ≤ 15 := fun h' => hd (Nat.lt_succ_of_le h')
      simp [fromNibble, rassert, this] at h
  · intro s r h
    by_cases hlen : (strip0x s).length > 128
    · rw [fromStr_err (Or.inr hlen)] at h; cases h
    · cases hp : parseDigits (strip0x s) with
      | none => rw [fromStr_err (Or.inl hp)] at h; cases h
      | some l =>
        rw [fromStr_ok hp (by rw [parseDigits_length hp]; omega)] at h
        exact (Except.ok.inj h) ▸ ofList_WF _
  · intro bs r h
    cases bs with
    | nil => cases h
    | cons b0 rest =>
      by_cases hlen : rest.length ≤ 32
      · by_cases hf : b0.toNat / 16 < 4
        · rw [fromHexPrefix_ok hlen hf] at h
          exact (Except.ok.inj (Except.ok.inj h)) ▸ ofList_WF _
        · rw [fromHexPrefix_invalid hlen (by omega)] at h
          cases h
      · rw [fromHexPrefix_tooLong (by simp only [List.length_cons]; omega)] at h
        cases h
  · intro h
    rw [fromH256BE_eq, fromH256LE_eq]
    exact ⟨ofList_WF _, ofList_WF _⟩

theorem truncateFront_cases (P : Profile) {l : Key} (hl : l.length ≤ 128) (k : Nat) :
    (ofList l).truncateFront P k = .ok (ofList (l.drop k)) ∨
      (ofList l).truncateFront P k = .error .overflow := by
  by_cases hm : min k l.length < 128
  · exact Or.inl (truncateFront_ok P hl hm)
  · right
    have h1 : l.length = 128 := by omega
    have h2 : 128 ≤ k := by omega
    unfold truncateFront
    have : (ofList l).minTruncate k = 128 := by
      unfold minTruncate
      rw [ofList_count, h1]
      rcases Nat.eq_or_lt_of_le h2 with h | h
      · subst h; rfl
      · have : ¬ (128 ≥ k) := by omega
        simp [this]
    simp only [this]
    rw [ofList_count, h1, usub_ok (Nat.le_refl _), R_bind_ok, umul_ok (by decide), R_bind_ok,
      umul_ok (by decide), R_bind_ok, createMask_err (by decide)]
    rfl

theorem truncateBack_cases (P : Profile) {l : Key} (hl : l.length ≤ 128) (k : Nat) :
    (ofList l).truncateBack P k = .ok (ofList (l.take (l.length - k))) ∨
      (ofList l).truncateBack P k = .error .overflow := by
  by_cases hm : min k l.length < 128
  · exact Or.inl (truncateBack_ok P hl hm)
  · right
    have h1 : l.length = 128 := by omega
    have h2 : 128 ≤ k := by omega
    unfold truncateBack
    have : (ofList l).minTruncate k = 128 := by
      unfold minTruncate
      rw [ofList_count, h1]
      rcases Nat.eq_or_lt_of_le h2 with h | h
      · subst h; rfl
      · have : ¬ (128 ≥ k) := by omega
        simp [this]
    simp only [this]
    rw [umul_ok (by decide), R_bind_ok, R_bind_ok, createMask_err (by decide)]
    rfl

theorem splitAtIdxPrefix_WF {P : Profile} {n r : Nibbles} {i : Nat}
    (h : n.splitAtIdxPrefix P i = .ok r) : r.WF := by
  unfold splitAtIdxPrefix at h
  obtain ⟨x, -, h⟩ := bind_ok_inv h
  obtain ⟨sh, -, h⟩ := bind_ok_inv h
  obtain ⟨y, h4, h⟩ := bind_ok_inv h
  obtain ⟨mk, h5, h⟩ := bind_ok_inv h
  obtain ⟨hy, rfl⟩ := createMask_cases h5
  have h := (Except.ok.inj h).symm
  subst h
  rw [WF]
  simp only
  rw [range_toNat, sixteen_pow]
  have := umul_le h4
  exact lt_of_lt_of_le (Nat.mod_lt _ (Nat.pow_pos (by decide)))
    (Nat.pow_le_pow_right (by decide) (by omega))

theorem splitAtIdxPostfix_WF {P : Profile} {n r : Nibbles} {i : Nat}
    (h : n.splitAtIdxPostfix P i = .ok r) : r.WF := by
  unfold splitAtIdxPostfix at h
  obtain ⟨pc, -, h⟩ := bind_ok_inv h
  obtain ⟨y, h4, h⟩ := bind_ok_inv h
  obtain ⟨mk, h5, h⟩ := bind_ok_inv h
  obtain ⟨hy, rfl⟩ := createMask_cases h5
  have h := (Except.ok.inj h).symm
  subst h
  rw [WF]
  simp only
  rw [and_ones_toNat, sixteen_pow]
  have := umul_le h4
  exact lt_of_lt_of_le (Nat.mod_lt _ (Nat.pow_pos (by decide)))
    (Nat.pow_le_pow_right (by decide) (by omega))

theorem splitAtIdx_WF {P : Profile} {n pre post : Nibbles} {i : Nat} (hn : n.Fits)
    (h : n.splitAtIdx P i = .ok (pre, post)) : pre.WF ∧ post.WF := by
  unfold splitAtIdx at h
  obtain ⟨pc, h1, h⟩ := bind_ok_inv h
  obtain ⟨y, h4, h⟩ := bind_ok_inv h
  obtain ⟨mk, h5, h⟩ := bind_ok_inv h
  obtain ⟨hy, rfl⟩ := createMask_cases h5
  rw [h4, R_bind_ok] at h
  have h := (Except.ok.inj h).symm
  rw [Prod.mk.injEq] at h
  obtain ⟨rfl, rfl⟩ := h
  constructor
  · rw [WF]
    simp only
    rw [truncBack_toNat, sixteen_pow]
    have hw := hn.1
    rw [WF, sixteen_pow] at hw
    by_cases hic : i ≤ n.count
    · rw [usub_ok hic] at h1
      have h1 := Except.ok.inj h1
      subst h1
      have hc := hn.2
      rw [umul_ok (by omega)] at h4
      have h4 := Except.ok.inj h4
      subst h4
      apply Nat.div_lt_of_lt_mul
      rw [← Nat.pow_add]
      exact lt_of_lt_of_le hw (Nat.pow_le_pow_right (by decide) (by omega))
    · exact lt_of_le_of_lt (Nat.div_le_self _ _)
        (lt_of_lt_of_le hw (Nat.pow_le_pow_right (by decide) (by omega)))
  · rw [WF]
    simp only
    rw [and_ones_toNat, sixteen_pow]
    have := umul_le h4
    exact lt_of_lt_of_le (Nat.mod_lt _ (Nat.pow_pos (by decide)))
      (Nat.pow_le_pow_right (by decide) (by omega))

theorem reverse_WF {r : Nibbles} (h : r.WF) : r.reverse.WF := by
  by_cases hc : r.count ≤ 128
  · obtain ⟨l, hl, rfl⟩ := wf_cases h hc
    rw [reverse_ok hl]; exact ofList_WF _
  · rw [WF, sixteen_pow]
    exact lt_of_lt_of_le (BitVec.isLt _)
      (Nat.pow_le_pow_right (by decide) (by change 512 ≤ 4 * r.count; omega))

/-- C01 (operations): every operation applied to well-formed keys, with any arguments and in any
build profile, returns a well-formed key (or panics). -/
theorem C01_operations_wf (P : Profile) (n m : Nibbles) (hn : n.Fits) (hm : m.Fits) :
    (∀ d r, n.popNextFront P = .ok (d, r) → r.WF) ∧
    (∀ d r, n.popNextBack P = .ok (d, r) → r.WF) ∧
    (∀ k p r, n.popNibblesFront P k = .ok (p, r) → p.WF ∧ r.WF) ∧
    (∀ k p r, n.popNibblesBack P k = .ok (p, r) → p.WF ∧ r.WF) ∧
    (∀ d r, n.pushNibbleFront P d = .ok r → r.WF) ∧
    (∀ d r, n.pushNibbleBack P d = .ok r → r.WF) ∧
    (∀ r, n.pushNibblesFront P m = .ok r → r.WF) ∧
    (∀ s e r, n.getNibbleRange P s e = .ok r → r.WF) ∧
    (∀ k r, n.getNextNibbles P k = .ok r → r.WF) ∧
    (∀ k r, n.truncateFront P k = .ok r → r.WF) ∧
    (∀ k r, n.truncateBack P k = .ok r → r.WF) ∧
    (∀ i pre post, n.splitAtIdx P i = .ok (pre, post) → pre.WF ∧ post.WF) ∧
    (∀ i r, n.splitAtIdxPrefix P i = .ok r → r.WF) ∧
    (∀ i r, n.splitAtIdxPostfix P i = .ok r → r.WF) ∧
    (∀ d r, n.mergeNibble P d = .ok r → r.WF) ∧
    (∀ r, n.mergeNibbles P m = .ok r → r.WF) ∧
    n.reverse.WF ∧ n.bytePadded.WF := by
  obtain ⟨l, hl, e⟩ := wf_cases hn.1 hn.2
  obtain ⟨k, hk, e'⟩ := wf_cases hm.1 hm.2
  have tf : ∀ i r, n.truncateFront P i = .ok r → r.WF := by
    intro i r h
    rw [e] at h
    rcases truncateFront_cases P hl i with h' | h' <;> rw [h'] at h
    · exact (Except.ok.inj h) ▸ ofList_WF _
    · cases h
  have tb : ∀ i r, n.truncateBack P i = .ok r → r.WF := by
    intro i r h
    rw [e] at h
    rcases truncateBack_cases P hl i with h' | h' <;> rw [h'] at h
    · exact (Except.ok.inj h) ▸ ofList_WF _
    · cases h
  have mn : ∀ d r, n.mergeNibble P d = .ok r → r.WF := by
    intro d r h
    by_cases hc : 64 ≤ n.count ∨ 16 ≤ d
    · rw [mergeNibble_err hc] at h; cases h
    · rw [e, ofList_count] at hc
      obtain ⟨hc1, hc2⟩ := not_or.1 hc
      rw [e, mergeNibble_ok P (d := d) (Nat.lt_of_not_le hc2) (by omega)] at h
      exact (Except.ok.inj h) ▸ ofList_WF _
  refine ⟨?_, ?_, ?_, ?_, ?_, mn, ?_, fun _ _ _ => getNibbleRange_WF,
    fun _ _ => getNibbleRange_WF, tf, tb, fun i pre post => splitAtIdx_WF hn,
    fun _ _ => splitAtIdxPrefix_WF, fun _ _ => splitAtIdxPostfix_WF, mn, ?_, ?_, ?_⟩
  · intro d r h
    unfold popNextFront at h
    obtain ⟨_, -, h⟩ := bind_ok_inv h
    obtain ⟨r', h1, h⟩ := bind_ok_inv h
    have := (Prod.mk.inj (Except.ok.inj h)).2
    exact this ▸ tf _ _ h1
  · intro d r h
    unfold popNextBack at h
    obtain ⟨_, -, h⟩ := bind_ok_inv h
    obtain ⟨_, -, h⟩ := bind_ok_inv h
    obtain ⟨r', h1, h⟩ := bind_ok_inv h
    have := (Prod.mk.inj (Except.ok.inj h)).2
    exact this ▸ tb _ _ h1
  · intro i p r h
    unfold popNibblesFront at h
    obtain ⟨p', h0, h⟩ := bind_ok_inv h
    obtain ⟨r', h1, h⟩ := bind_ok_inv h
    have := (Prod.mk.inj (Except.ok.inj h))
    exact ⟨this.1 ▸ getNibbleRange_WF h0, this.2 ▸ tf _ _ h1⟩
  · intro i p r h
    unfold popNibblesBack at h
    obtain ⟨_, -, h⟩ := bind_ok_inv h
    obtain ⟨_, h0, h⟩ := bind_ok_inv h
    obtain ⟨r', h1, h⟩ := bind_ok_inv h
    have := (Prod.mk.inj (Except.ok.inj h))
    exact ⟨this.1 ▸ reverse_WF (getNibbleRange_WF h0), this.2 ▸ tb _ _ h1⟩
  · intro d r h
    by_cases hc : 64 ≤ n.count ∨ 16 ≤ d
    · rw [pushNibbleFront_err hc] at h; cases h
    · rw [e, ofList_count] at hc
      obtain ⟨hc1, hc2⟩ := not_or.1 hc
      rw [e, pushNibbleFront_ok P (d := d) (Nat.lt_of_not_le hc2) (by omega)] at h
      exact (Except.ok.inj h) ▸ ofList_WF _
  · intro r h
    rw [e, e'] at h
    by_cases hc : 64 < k.length + l.length
    · rw [pushNibblesFront_err hk hl hc] at h; cases h
    · rw [pushNibblesFront_ok P (by omega)] at h
      exact (Except.ok.inj h) ▸ ofList_WF _
  · intro r h
    rw [e, e'] at h
    by_cases hc : 64 < l.length + k.length
    · rw [mergeNibbles_err hl hk hc] at h; cases h
    · rw [mergeNibbles_ok P (by omega)] at h
      exact (Except.ok.inj h) ▸ ofList_WF _
  · rw [e, reverse_ok hl]; exact ofList_WF _
  · rw [e, bytePadded_ok hl]; exact ofList_WF _

example : (exKey.mergeNibbles .debug exKey2) = .ok ⟨7, 0xa50a71#512⟩ := by decide +kernel

/-! ## C02 -/

/-- C02: an in-range index returns the nibble at that position, in both profiles. -/
theorem C02_get_nibble (P : Profile) (n : Nibbles) (hn : n.Fits) (i : Nat)
    (hi : i < n.toList.length) : n.getNibble P i = .ok (n.toList[i]).val := by
  obtain ⟨l, hl, rfl⟩ := wf_cases hn.1 hn.2
  simp only [toList_ofList hl] at hi ⊢
  exact getNibble_ok P hl hi

/-- C02: an out-of-range index panics when overflow checks are on. -/
theorem C02_get_nibble_panics (n : Nibbles) (i : Nat) (hi : n.toList.length ≤ i) :
    n.getNibble .debug i = .error .overflow := by
  rw [toList_length] at hi
  exact getNibble_panic .debug hi rfl

/-- C02 without overflow checks: an out-of-range `usize` index panics, unless it lies within 128 of
the wrap-around point `2^64`.  Missing with respect to C02: those last 128 indices, where the
statement is false (`C02_false_release`). -/
theorem C02_get_nibble_panics_release_partial (n : Nibbles) (hn : n.Fits) (i : Nat)
    (hi : n.toList.length ≤ i) (hi2 : i + 129 ≤ 2 ^ 64 + n.count) :
    n.getNibble .release i = .error .indexOutOfBounds := by
  rw [toList_length] at hi
  have hc := hn.2
  have wrap : ∀ a b, a < b → usub .release a b = .ok (a + 2 ^ 64 - b) := by
    intro a b h
    unfold usub
    rw [if_neg (by omega), if_neg (by decide)]
  have byteErr : ∀ (x : U512) (k : Nat), 64 ≤ k → x.byte k = .error .indexOutOfBounds := by
    intro x k h
    unfold U512.byte
    rw [if_neg (by omega)]
  have fin : ∀ k, 64 ≤ k / 2 → (do
      let byte ← n.packed.byte (k / 2)
      match isEven k with
      | false => return (byte &&& 0b11110000) >>> 4
      | true => return byte &&& 0b00001111 : R Nibble) = .error .indexOutOfBounds := by
    intro k h
    rw [byteErr _ _ h, R_bind_err]
  unfold getNibble
  rcases Nat.eq_or_lt_of_le hi with h | h
  · rw [usub_ok (by omega), R_bind_ok, wrap _ _ (by omega), R_bind_ok]
    exact fin _ (by omega)
  · rw [wrap _ _ h, R_bind_ok, usub_ok (by omega), R_bind_ok]
    exact fin _ (by omega)

/-- C02 is false for the very last `usize` indices in a release build: the index arithmetic wraps
around to a valid position. -/
theorem C02_false_release :
    ∃ (n : Nibbles) (i : Nat), n.Fits ∧ n.toList.length ≤ i ∧ i < 2 ^ 64 ∧
      n.getNibble .release i = .ok 0 :=
  ⟨exKey, 2 ^ 64 - 1, by decide +kernel, by decide +kernel, by decide +kernel, by decide +kernel⟩

example : exKey.getNibble .debug 1 = .ok 10 := by decide +kernel
example : exKey.getNibble .release 3 = .error .indexOutOfBounds := by decide +kernel

/-! ## C03 -/

/-- `toList` of the result. -/
def rlist (r : R Nibbles) : R Key := r.map toList
/-- `toList` of both components of the result. -/
def rlist2 (r : R (Nibbles × Nibbles)) : R (Key × Key) := r.map fun p => (p.1.toList, p.2.toList)

theorem rlist_ok {l : Key} (h : l.length ≤ 128) : rlist (.ok (ofList l)) = .ok l := by
  simp [rlist, Except.map, toList_ofList h]

theorem rlist2_ok {a b : Key} (h : a.length ≤ 128) (h' : b.length ≤ 128) :
    rlist2 (.ok (ofList a, ofList b)) = .ok (a, b) := by
  simp [rlist2, Except.map, toList_ofList h, toList_ofList h']

/-- C03: slicing operations are `take`/`drop` on the nibble sequence.  Missing with respect to C03:
the requests spanning all 128 nibbles of a full-capacity key, where the code panics
(`C03_false_full_capacity`). -/
theorem C03_slicing_partial (P : Profile) (n : Nibbles) (hn : n.Fits) :
    (∀ s e, s ≤ e → e ≤ n.count → e - s < 128 →
      rlist (n.getNibbleRange P s e) = .ok ((n.toList.take e).drop s)) ∧
    (∀ k, k ≤ n.count → k < 128 → rlist (n.getNextNibbles P k) = .ok (n.toList.take k)) ∧
    (∀ i, i ≤ n.count → n.count - i < 128 →
      rlist2 (n.splitAtIdx P i) = .ok (n.toList.take i, n.toList.drop i)) ∧
    (∀ i, i ≤ n.count → i < 128 → rlist (n.splitAtIdxPrefix P i) = .ok (n.toList.take i)) ∧
    (∀ i, i ≤ n.count → n.count - i < 128 →
      rlist (n.splitAtIdxPostfix P i) = .ok (n.toList.drop i)) ∧
    (∀ k, min k n.count < 128 → rlist (n.truncateFront P k) = .ok (n.toList.drop k)) ∧
    (∀ k, min k n.count < 128 →
      rlist (n.truncateBack P k) = .ok (n.toList.take (n.toList.length - k))) ∧
    (∀ k, k ≤ n.count → k < 128 →
      rlist2 (n.popNibblesFront P k) = .ok (n.toList.take k, n.toList.drop k)) ∧
    (∀ k, k ≤ n.count → k < 128 →
      rlist2 (n.popNibblesBack P k) =
        .ok ((n.toList.drop (n.toList.length - k)).reverse, n.toList.take (n.toList.length - k))) := by
  obtain ⟨l, hl, rfl⟩ := wf_cases hn.1 hn.2
  simp only [toList_ofList hl, ofList_count]
  refine ⟨?_, ?_, ?_, ?_, ?_, ?_, ?_, ?_, ?_⟩
  · intro s e h1 h2 h3
    rw [getNibbleRange_ok P hl h1 h2 h3, rlist_ok (by simp; omega)]
  · intro k h1 h2
    rw [getNextNibbles, getNibbleRange_ok P hl (by omega) h1 (by omega), rlist_ok (by simp; omega)]
    simp
  · intro i h1 h2
    rw [splitAtIdx_ok P hl h1 h2, rlist2_ok (by simp; omega) (by simp; omega)]
  · intro i h1 h2
    rw [splitAtIdxPrefix_ok P hl h1 h2, rlist_ok (by simp; omega)]
  · intro i h1 h2
    rw [splitAtIdxPostfix_ok P hl h1 h2, rlist_ok (by simp; omega)]
  · intro k h
    rw [truncateFront_ok P hl h, rlist_ok (by simp; omega)]
  · intro k h
    rw [truncateBack_ok P hl h, rlist_ok (by simp; omega)]
  · intro k h1 h2
    rw [popNibblesFront_ok P hl h1 h2, rlist2_ok (by simp; omega) (by simp; omega)]
  · intro k h1 h2
    rw [popNibblesBack_ok P hl h1 h2, rlist2_ok (by simp; omega) (by simp; omega)]

/-- C03: popping a single nibble, for every non-empty key. -/
theorem C03_pop_one (P : Profile) (n : Nibbles) (hn : n.Fits) :
    (∀ d r, n.toList = d :: r →
      ∃ m, n.popNextFront P = .ok (d.val, m) ∧ m.toList = r) ∧
    (∀ d r, n.toList = r ++ [d] →
      ∃ m, n.popNextBack P = .ok (d.val, m) ∧ m.toList = r) := by
  obtain ⟨l, hl, rfl⟩ := wf_cases hn.1 hn.2
  simp only [toList_ofList hl]
  constructor
  · rintro d r rfl
    exact ⟨ofList r, popNextFront_ok P hl, toList_ofList (by simp at hl; omega)⟩
  · rintro d r rfl
    exact ⟨ofList r, popNextBack_ok P hl, toList_ofList (by simp at hl; omega)⟩

/-- C03: with overflow checks, out-of-range requests panic. -/
theorem C03_out_of_range_panics (n : Nibbles) :
    (∀ s e, e < s ∨ n.count < e → n.getNibbleRange .debug s e = .error .overflow) ∧
    (∀ k, n.count < k → n.getNextNibbles .debug k = .error .overflow) ∧
    (∀ i, n.count < i → n.splitAtIdx .debug i = .error .overflow) ∧
    (∀ i, n.count < i → n.splitAtIdxPrefix .debug i = .error .overflow) ∧
    (∀ i, n.count < i → n.splitAtIdxPostfix .debug i = .error .overflow) ∧
    (∀ k, n.count < k → n.popNibblesFront .debug k = .error .overflow) ∧
    (∀ k, n.count < k → n.popNibblesBack .debug k = .error .overflow) ∧
    (n.count = 0 → n.popNextFront .debug = .error .overflow) ∧
    (n.count = 0 → n.popNextBack .debug = .error .overflow) := by
  have us : ∀ a b, a < b → usub .debug a b = .error .overflow := by
    intro a b h
    have : ¬ b ≤ a := by omega
    simp [usub, this, Profile.debug]
  have gr : ∀ s e, e < s ∨ n.count < e → n.getNibbleRange .debug s e = .error .overflow := by
    intro s e h
    unfold getNibbleRange
    by_cases h1 : e < s
    · rw [us _ _ h1]; rfl
    · rw [usub_ok (by omega), R_bind_ok, us _ _ (by omega)]; rfl
  refine ⟨gr, fun k h => gr 0 k (Or.inr h), ?_, ?_, ?_, ?_, ?_, ?_, ?_⟩
  · intro i h; unfold splitAtIdx; rw [us _ _ h]; rfl
  · intro i h; unfold splitAtIdxPrefix; rw [us _ _ h]; rfl
  · intro i h; unfold splitAtIdxPostfix; rw [us _ _ h]; rfl
  · intro k h; unfold popNibblesFront; rw [gr 0 k (Or.inr h)]; rfl
  · intro k h; unfold popNibblesBack; rw [us _ _ h]; rfl
  · intro h; unfold popNextFront
    rw [getNibble_panic .debug (by omega) rfl]; rfl
  · intro h; unfold popNextBack
    rw [us _ _ (by omega)]; rfl

/-- C03 is false at full capacity: taking all 128 nibbles of a 128-nibble key panics (the mask of
512 ones cannot be built). -/
theorem C03_false_full_capacity :
    ∃ n : Nibbles, n.Fits ∧ n.count = 128 ∧
      n.getNibbleRange .debug 0 128 = .error .overflow ∧
      n.truncateFront .release 128 = .error .overflow :=
  ⟨⟨128, 1#512⟩, by decide +kernel, rfl, by decide +kernel, by decide +kernel⟩

example : exKey2.splitAtIdx .debug 1 = .ok (⟨1, 0#512⟩, ⟨3, 0xa71#512⟩) := by decide +kernel
example : exKey2.popNibblesBack .debug 3 = .ok (⟨3, 0x17a#512⟩, ⟨1, 0#512⟩) := by decide +kernel

/-! ## C04 -/

/-- C04: concatenation of keys, with the exact panic condition. -/
theorem C04_concat (P : Profile) (a b : Nibbles) (ha : a.Fits) (hb : b.Fits) :
    rlist (a.mergeNibbles P b) =
      (if a.toList.length + b.toList.length ≤ 64 then .ok (a.toList ++ b.toList)
       else .error .assertFailed) ∧
    rlist (b.pushNibblesFront P a) =
      (if a.toList.length + b.toList.length ≤ 64 then .ok (a.toList ++ b.toList)
       else .error .assertFailed) := by
  obtain ⟨l, hl, rfl⟩ := wf_cases ha.1 ha.2
  obtain ⟨k, hk, rfl⟩ := wf_cases hb.1 hb.2
  rw [toList_ofList hl, toList_ofList hk]
  by_cases h : l.length + k.length ≤ 64
  · rw [if_pos h, mergeNibbles_ok P h, pushNibblesFront_ok P h, rlist_ok (by simp; omega)]
    exact ⟨rfl, rfl⟩
  · rw [if_neg h, mergeNibbles_err hl hk (by omega), pushNibblesFront_err hl hk (by omega)]
    exact ⟨rfl, rfl⟩

/-- C04: pushing one nibble, with the exact panic condition. -/
theorem C04_push (P : Profile) (a : Nibbles) (ha : a.Fits) (d : Nat) :
    rlist (a.mergeNibble P d) =
      (if h : a.toList.length < 64 ∧ d < 16 then .ok (a.toList ++ [⟨d, h.2⟩])
       else .error .assertFailed) ∧
    rlist (a.pushNibbleBack P d) =
      (if h : a.toList.length < 64 ∧ d < 16 then .ok (a.toList ++ [⟨d, h.2⟩])
       else .error .assertFailed) ∧
    rlist (a.pushNibbleFront P d) =
      (if h : a.toList.length < 64 ∧ d < 16 then .ok (⟨d, h.2⟩ :: a.toList)
       else .error .assertFailed) := by
  obtain ⟨l, hl, rfl⟩ := wf_cases ha.1 ha.2
  rw [toList_ofList hl, pushNibbleBack_eq_mergeNibble]
  by_cases h : l.length < 64 ∧ d < 16
  · rw [dif_pos h, dif_pos h, mergeNibble_ok P h.2 h.1, pushNibbleFront_ok P h.2 h.1,
      rlist_ok (by simp; omega), rlist_ok (by simp; omega)]
    exact ⟨rfl, rfl, rfl⟩
  · rw [dif_neg h, dif_neg h, mergeNibble_err (by rw [ofList_count]; omega),
      pushNibbleFront_err (by rw [ofList_count]; omega)]
    exact ⟨rfl, rfl, rfl⟩

example : exKey.pushNibbleFront .debug 0xf = .ok ⟨4, 0xf0a5#512⟩ := by decide +kernel
example : exKey.pushNibbleBack .debug 16 = .error .assertFailed := by decide +kernel

/-! ## C05 -/

/-- C05: `reverse` reverses the nibble sequence. -/
theorem C05_reverse (n : Nibbles) (hn : n.Fits) : n.reverse.toList = n.toList.reverse := by
  obtain ⟨l, hl, rfl⟩ := wf_cases hn.1 hn.2
  rw [reverse_ok hl, toList_ofList hl, toList_ofList (by simpa using hl)]

/-- C05: reversing twice is the identity. -/
theorem C05_reverse_involutive (n : Nibbles) (hn : n.Fits) : n.reverse.reverse = n := by
  obtain ⟨l, hl, rfl⟩ := wf_cases hn.1 hn.2
  rw [reverse_ok hl, reverse_ok (by simpa using hl), List.reverse_reverse]

example : exKey2.reverse = ⟨4, 0x17a0#512⟩ := by decide +kernel

/-! ## C06 -/

/-- `i` is the length of the longest common prefix of `a` and `b`. -/
def IsCommonPrefixLength (a b : Key) (i : Nat) : Prop :=
  i ≤ a.length ∧ i ≤ b.length ∧ a.take i = b.take i ∧
    ∀ (ha : i < a.length) (hb : i < b.length), a[i] ≠ b[i]

theorem cpl_spec (a b : Key) : IsCommonPrefixLength a b (cpl a b) :=
  ⟨cpl_le_left a b, cpl_le_right a b, take_cpl a b, fun ha hb => cpl_ne a b ha hb⟩

/-- C06: the differing index is the length of the longest common prefix.  Missing with respect to
C06: pairs of keys that both have the full 128 nibbles, where the code panics
(`C06_false_full_capacity`). -/
theorem C06_find_differing_idx_partial (P : Profile) (a b : Nibbles) (ha : a.Fits) (hb : b.Fits)
    (h : min a.count b.count < 128) :
    ∃ i, findDiffDifferentLengths P a b = .ok i ∧ IsCommonPrefixLength a.toList b.toList i := by
  obtain ⟨l, hl, rfl⟩ := wf_cases ha.1 ha.2
  obtain ⟨k, hk, rfl⟩ := wf_cases hb.1 hb.2
  rw [toList_ofList hl, toList_ofList hk]
  exact ⟨_, findDiffDifferentLengths_ok P hl hk h, cpl_spec l k⟩

/-- C06 for the equal-length variant, including the panic on different lengths. -/
theorem C06_find_differing_idx_equal (P : Profile) (a b : Nibbles) (ha : a.Fits) (hb : b.Fits) :
    (a.count = b.count →
      ∃ i, findDiffEqualLengths P a b = .ok i ∧ IsCommonPrefixLength a.toList b.toList i) ∧
    (a.count ≠ b.count → findDiffEqualLengths P a b = .error .assertFailed) := by
  obtain ⟨l, hl, rfl⟩ := wf_cases ha.1 ha.2
  obtain ⟨k, hk, rfl⟩ := wf_cases hb.1 hb.2
  rw [toList_ofList hl, toList_ofList hk]
  constructor
  · intro h
    exact ⟨_, findDiffEqualLengths_ok P hl h, cpl_spec l k⟩
  · intro h
    unfold findDiffEqualLengths
    rw [rassert_err (by simpa using h)]; rfl

/-- C06: the prefix test. -/
theorem C06_identical_up_to_smallest (P : Profile) (a b : Nibbles) (ha : a.Fits) (hb : b.Fits) :
    ∃ r, identicalUpToSmallest P a b = .ok r ∧
      (r = true ↔ a.toList <+: b.toList ∨ b.toList <+: a.toList) := by
  obtain ⟨l, hl, rfl⟩ := wf_cases ha.1 ha.2
  obtain ⟨k, hk, rfl⟩ := wf_cases hb.1 hb.2
  rw [toList_ofList hl, toList_ofList hk]
  exact ⟨_, identicalUpToSmallest_ok P hl hk, by simp⟩

/-- C06 is false for two full-capacity keys: the computation panics. -/
theorem C06_false_full_capacity :
    ∃ n : Nibbles, n.Fits ∧ findDiffDifferentLengths .debug n n = .error .overflow :=
  ⟨⟨128, 1#512⟩, by decide +kernel, by decide +kernel⟩

example : findDiffDifferentLengths .debug exKey exKey2 = .ok 2 := by decide +kernel
example : identicalUpToSmallest .debug exKey exKey2 = .ok false := by decide +kernel

/-! ## C46 -/

/-- C46: the derived ordering is a total order consistent with `==`. -/
theorem C46_total_order :
    (∀ a b : Nibbles, Nibbles.cmp a b = .eq ↔ a = b) ∧
    (∀ a b : Nibbles, Nibbles.cmp b a = (Nibbles.cmp a b).swap) ∧
    (∀ a b c : Nibbles, Nibbles.cmp a b = .lt → Nibbles.cmp b c = .lt → Nibbles.cmp a c = .lt) := by
  have key : ∀ a b : Nibbles, Nibbles.cmp a b = .lt ↔
      a.count < b.count ∨ (a.count = b.count ∧ a.packed.toNat < b.packed.toNat) := by
    intro a b
    simp only [Nibbles.cmp, Ordering.then_eq_lt, Nat.compare_eq_lt, Nat.compare_eq_eq]
  refine ⟨?_, ?_, ?_⟩
  · intro a b
    simp only [Nibbles.cmp, Ordering.then_eq_eq, Nat.compare_eq_eq]
    exact ⟨fun h => Nibbles.ext' h.1 h.2, fun h => h ▸ ⟨rfl, rfl⟩⟩
  · intro a b
    simp only [Nibbles.cmp]
    rw [Ordering.swap_then, Nat.compare_swap, Nat.compare_swap]
  · intro a b c h1 h2
    rw [key] at *
    omega

/-- Lexicographic order on sequences of the same length. -/
def LexLt (a b : Key) : Prop :=
  ∃ (p : Key) (x y : Fin 16) (r s : Key), a = p ++ x :: r ∧ b = p ++ y :: s ∧ x < y

theorem value_lt_iff_lex {a b : Key} (h : a.length = b.length) : value a < value b ↔ LexLt a b := by
  constructor
  · intro hv
    have hne : a ≠ b := by rintro rfl; exact lt_irrefl _ hv
    have h1 : cpl a b < a.length := by
      rcases Nat.lt_or_ge (cpl a b) a.length with h1 | h1
      · exact h1
      · exfalso
        have := take_cpl a b
        rw [List.take_of_length_le h1, List.take_of_length_le (h ▸ h1)] at this
        exact hne this
    have h2 : cpl a b < b.length := h ▸ h1
    have hne' := cpl_ne a b h1 h2
    have ea : a = a.take (cpl a b) ++ a[cpl a b] :: a.drop (cpl a b + 1) := by
      rw [← List.drop_eq_getElem_cons, List.take_append_drop]
    have eb : b = a.take (cpl a b) ++ b[cpl a b] :: b.drop (cpl a b + 1) := by
      rw [take_cpl, ← List.drop_eq_getElem_cons, List.take_append_drop]
    refine ⟨_, _, _, _, _, ea, eb, ?_⟩
    by_contra hc
    have hlt : b[cpl a b] < a[cpl a b] := by
      have : (a[cpl a b]).val ≠ (b[cpl a b]).val := fun e => hne' (Fin.ext e)
      have hc' : ¬ (a[cpl a b]).val < (b[cpl a b]).val := hc
      exact Fin.lt_def.2 (by omega)
    have va := congrArg value ea
    have vb := congrArg value eb
    simp only [value_append, value_cons, List.length_cons, List.length_drop, h] at va vb
    have l2 := value_lt (b.drop (cpl a b + 1))
    simp only [List.length_drop] at l2
    have : (b[cpl a b]).val + 1 ≤ (a[cpl a b]).val := hlt
    have := Nat.mul_le_mul_right (16 ^ (b.length - (cpl a b + 1))) this
    rw [Nat.add_mul, Nat.one_mul] at this
    omega
  · rintro ⟨p, x, y, r, s, rfl, rfl, hxy⟩
    simp only [List.length_append, List.length_cons] at h
    have hrs : r.length = s.length := by omega
    simp only [value_append, value_cons, List.length_cons, hrs]
    have l1 := value_lt r
    rw [hrs] at l1
    have : x.val + 1 ≤ y.val := hxy
    have := Nat.mul_le_mul_right (16 ^ s.length) this
    rw [Nat.add_mul, Nat.one_mul] at this
    omega

/-- C46: the ordering compares length first, then nibbles lexicographically. -/
theorem C46_length_then_lex (a b : Nibbles) (ha : a.Fits) (hb : b.Fits) :
    Nibbles.cmp a b = .lt ↔
      a.toList.length < b.toList.length ∨
        (a.toList.length = b.toList.length ∧ LexLt a.toList b.toList) := by
  obtain ⟨l, hl, rfl⟩ := wf_cases ha.1 ha.2
  obtain ⟨k, hk, rfl⟩ := wf_cases hb.1 hb.2
  rw [toList_ofList hl, toList_ofList hk]
  simp only [Nibbles.cmp, Ordering.then_eq_lt, Nat.compare_eq_lt, Nat.compare_eq_eq, ofList_count,
    ofList_packed hl, ofList_packed hk]
  constructor
  · rintro (h | ⟨h1, h2⟩)
    · exact Or.inl h
    · exact Or.inr ⟨h1, (value_lt_iff_lex h1).1 h2⟩
  · rintro (h | ⟨h1, h2⟩)
    · exact Or.inl h
    · exact Or.inr ⟨h1, (value_lt_iff_lex h1).2 h2⟩

example : Nibbles.cmp exKey exKey2 = .lt := by decide +kernel

end EthTrie
