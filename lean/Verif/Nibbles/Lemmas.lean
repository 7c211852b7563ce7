import Verif.Nibbles.Model
import Verif.Spec.Keys
import Mathlib.Tactic.Ring

/-!
# The packed representation refines sequences of nibbles

`Nibbles.ofList` packs a sequence; every operation of the model applied to packed sequences is the
corresponding list operation.
-/

namespace EthTrie
open Spec

set_option exponentiation.threshold 600

/-! ## Arithmetic on masks -/

theorem sixteen_pow (n : Nat) : 16 ^ n = 2 ^ (4 * n) := by
  rw [Nat.pow_mul]

theorem createMask_ok {amt : Nat} (h : amt < 512) :
    createMaskOf1s amt = .ok (BitVec.ofNat 512 (2 ^ amt - 1)) := by
  have hlt : 2 ^ amt < 2 ^ 512 := Nat.pow_lt_pow_right (by decide) h
  have hpos : 0 < 2 ^ amt := Nat.pow_pos (by decide)
  have hx : ((1#512) <<< amt).toNat = 2 ^ amt := by
    rw [BitVec.toNat_shiftLeft, BitVec.toNat_ofNat, Nat.mod_eq_of_lt (a := 1) (by decide), Nat.one_shiftLeft,
      Nat.mod_eq_of_lt hlt]
  unfold createMaskOf1s
  have hne : (1#512) <<< amt ≠ 0#512 := by
    intro h0
    rw [h0] at hx
    simp at hx
    omega
  simp only [hne, if_false]
  congr 1
  apply BitVec.eq_of_toNat_eq
  rw [BitVec.toNat_sub_of_le, hx]
  · simp [BitVec.toNat_ofNat]
    rw [Nat.mod_eq_of_lt]; omega
  · rw [BitVec.le_def, hx]; exact hpos

theorem createMask_err {amt : Nat} (h : 512 ≤ amt) : createMaskOf1s amt = .error .overflow := by
  unfold createMaskOf1s
  have : (1#512) <<< amt = 0#512 := BitVec.shiftLeft_eq_zero h
  simp [this]

/-- `amt` ones. -/
def ones (amt : Nat) : U512 := BitVec.ofNat 512 (2 ^ amt - 1)

theorem ones_getLsbD (amt i : Nat) : (ones amt).getLsbD i = (decide (i < 512) && decide (i < amt)) := by
  simp [ones, BitVec.getLsbD_ofNat, Nat.testBit_two_pow_sub_one]

theorem and_ones_toNat (x : U512) (amt : Nat) : (x &&& ones amt).toNat = x.toNat % 2 ^ amt := by
  by_cases h : amt < 512
  · have hlt : 2 ^ amt < 2 ^ 512 := Nat.pow_lt_pow_right (by decide) h
    rw [BitVec.toNat_and, ones, BitVec.toNat_ofNat, Nat.mod_eq_of_lt (by omega),
      Nat.and_two_pow_sub_one_eq_mod]
  · have : x &&& ones amt = x := by
      apply BitVec.eq_of_getLsbD_eq
      intro i hi
      have : i < amt := by omega
      simp only [BitVec.getLsbD_and, ones_getLsbD, hi, this, decide_true, Bool.and_true]
    rw [this, Nat.mod_eq_of_lt]
    exact lt_of_lt_of_le x.isLt (Nat.pow_le_pow_right (by decide) (by omega))

theorem range_toNat (x : U512) (a s : Nat) :
    ((x &&& (ones a <<< s)) >>> s).toNat = x.toNat / 2 ^ s % 2 ^ a := by
  have : (x &&& (ones a <<< s)) >>> s = (x >>> s) &&& ones a := by
    apply BitVec.eq_of_getLsbD_eq
    intro i hi
    simp only [BitVec.getLsbD_ushiftRight, BitVec.getLsbD_and, BitVec.getLsbD_shiftLeft,
      ones_getLsbD]
    by_cases h : s + i < 512
    · have h2 : s + i - s = i := by omega
      simp [h, h2]
    · simp [BitVec.getLsbD_of_ge x (s + i) (by omega)]
  rw [this, and_ones_toNat, BitVec.toNat_ushiftRight, Nat.shiftRight_eq_div_pow]

theorem truncFront_toNat (x : U512) (a s : Nat) (hx : x.toNat < 2 ^ (s + a)) :
    (x &&& ~~~ (ones a <<< s)).toNat = x.toNat % 2 ^ s := by
  have : x &&& ~~~ (ones a <<< s) = x &&& ones s := by
    apply BitVec.eq_of_getLsbD_eq
    intro i hi
    simp only [BitVec.getLsbD_and, BitVec.getLsbD_not, BitVec.getLsbD_shiftLeft, ones_getLsbD, hi]
    by_cases h : i < s
    · simp [h]
    · by_cases h2 : i < s + a
      · have : i - s < a := by omega
        have : i - s < 512 := by omega
        simp [*]
      · have : x.getLsbD i = false := by
          rw [BitVec.getLsbD]
          exact Nat.testBit_lt_two_pow
            (lt_of_lt_of_le hx (Nat.pow_le_pow_right (by decide) (by omega)))
        simp [this]
  rw [this, and_ones_toNat]

theorem truncBack_toNat (x : U512) (a : Nat) :
    ((x &&& ~~~ (ones a)) >>> a).toNat = x.toNat / 2 ^ a := by
  have : (x &&& ~~~ (ones a)) >>> a = x >>> a := by
    apply BitVec.eq_of_getLsbD_eq
    intro i hi
    simp only [BitVec.getLsbD_ushiftRight, BitVec.getLsbD_and, BitVec.getLsbD_not, ones_getLsbD]
    by_cases h : a + i < 512
    · simp [h]
    · simp [BitVec.getLsbD_of_ge x (a + i) (by omega)]
  rw [this, BitVec.toNat_ushiftRight, Nat.shiftRight_eq_div_pow]

theorem shl_or_toNat (x y : U512) (s : Nat) (hy : y.toNat < 2 ^ s)
    (hx : x.toNat * 2 ^ s + y.toNat < 2 ^ 512) :
    ((x <<< s) ||| y).toNat = x.toNat * 2 ^ s + y.toNat := by
  rw [BitVec.toNat_or, BitVec.toNat_shiftLeft, Nat.shiftLeft_eq, Nat.mod_eq_of_lt (by omega),
    ← Nat.shiftLeft_eq, Nat.shiftLeft_add_eq_or_of_lt hy]

/-! ## Profile arithmetic -/

theorem usub_ok {P : Profile} {a b : Nat} (h : b ≤ a) : usub P a b = .ok (a - b) := by
  simp [usub, h]
theorem uadd_ok {P : Profile} {a b : Nat} (h : a + b < 2 ^ 64) : uadd P a b = .ok (a + b) := by
  simp only [uadd, h, if_true]
theorem umul_ok {P : Profile} {a b : Nat} (h : a * b < 2 ^ 64) : umul P a b = .ok (a * b) := by
  simp only [umul, h, if_true]

theorem rassert_ok {c : Bool} (h : c = true) : rassert c = .ok () := by simp [rassert, h]
theorem rassert_err {c : Bool} (h : c = false) : rassert c = .error .assertFailed := by
  simp [rassert, h]

@[simp] theorem R_pure {α : Type} (a : α) : (pure a : R α) = .ok a := rfl
@[simp] theorem R_bind_ok {α β : Type} (a : α) (f : α → R β) : ((.ok a : R α) >>= f) = f a := rfl
@[simp] theorem R_bind_err {α β : Type} (e : Panic) (f : α → R β) :
    ((.error e : R α) >>= f) = .error e := rfl

/-! ## Packing -/

namespace Nibbles

/-- Pack a sequence of nibbles. -/
def ofList (l : Key) : Nibbles := ⟨l.length, BitVec.ofNat 512 (value l)⟩

/-- The sequence of nibbles denoted by a `Nibbles`. -/
def toList (n : Nibbles) : Key := digits n.packed.toNat n.count

/-- Representation invariant: only the low `4 * count` bits are used. -/
def WF (n : Nibbles) : Prop := n.packed.toNat < 16 ^ n.count

instance (n : Nibbles) : Decidable n.WF := inferInstanceAs (Decidable (_ < _))

theorem ext' {a b : Nibbles} (h1 : a.count = b.count) (h2 : a.packed.toNat = b.packed.toNat) :
    a = b := by
  cases a; cases b
  simp only at h1 h2
  subst h1
  congr 1
  exact BitVec.eq_of_toNat_eq h2

@[simp] theorem ofList_count (l : Key) : (ofList l).count = l.length := rfl

theorem value_lt_512 {l : Key} (h : l.length ≤ 128) : value l < 2 ^ 512 := by
  have h1 := value_lt l
  rw [sixteen_pow] at h1
  exact lt_of_lt_of_le h1 (Nat.pow_le_pow_right (by decide) (by omega))

theorem ofList_packed {l : Key} (h : l.length ≤ 128) : (ofList l).packed.toNat = value l := by
  simp only [ofList, BitVec.toNat_ofNat]
  exact Nat.mod_eq_of_lt (value_lt_512 h)

theorem toList_length (n : Nibbles) : n.toList.length = n.count := digits_length _ _

theorem toList_ofList {l : Key} (h : l.length ≤ 128) : (ofList l).toList = l := by
  rw [toList, ofList_packed h, ofList_count, digits_value]

theorem ofList_WF (l : Key) : (ofList l).WF := by
  by_cases h : l.length ≤ 128
  · rw [WF, ofList_packed h, ofList_count]; exact value_lt l
  · rw [WF, sixteen_pow, ofList_count]
    exact lt_of_lt_of_le (BitVec.isLt _) (Nat.pow_le_pow_right (by decide) (by omega))

theorem ofList_toList {n : Nibbles} (h : n.WF) : ofList n.toList = n := by
  apply ext'
  · simp [toList_length]
  · simp only [ofList, toList, value_digits, BitVec.toNat_ofNat]
    rw [Nat.mod_eq_of_lt (a := n.packed.toNat) h, Nat.mod_eq_of_lt n.packed.isLt]

theorem ofList_inj {a b : Key} (ha : a.length ≤ 128) (hb : b.length ≤ 128)
    (h : ofList a = ofList b) : a = b := by
  rw [← toList_ofList ha, ← toList_ofList hb, h]

/-- To identify a `Nibbles` with a packed sequence it suffices to compare count and value. -/
theorem eq_ofList {n : Nibbles} {l : Key} (hl : l.length ≤ 128) (h1 : n.count = l.length)
    (h2 : n.packed.toNat = value l) : n = ofList l :=
  ext' h1 (by rw [h2, ofList_packed hl])

theorem toList_WF_inj {a b : Nibbles} (ha : a.WF) (hb : b.WF) (h : a.toList = b.toList) : a = b := by
  rw [← ofList_toList ha, ← ofList_toList hb, h]

/-! ## Operations on packed sequences -/

variable (P : Profile)

theorem default_eq : Nibbles.default = ofList [] := by decide

theorem isEmpty_ofList (l : Key) : (ofList l).isEmpty = l.isEmpty := by
  cases l <;> simp [isEmpty, ofList]

theorem fromNibble_ok {d : Nat} (h : d < 16) : fromNibble d = .ok (ofList [⟨d, h⟩]) := by
  have : d ≤ 15 := by omega
  simp [fromNibble, rassert, this, ofList, value]

theorem getNibble_ok {l : Key} {i : Nat} (hl : l.length ≤ 128) (hi : i < l.length) :
    (ofList l).getNibble P i = .ok l[i].val := by
  unfold getNibble
  rw [ofList_count, usub_ok (by omega), R_bind_ok, usub_ok (by omega), R_bind_ok]
  have hb : (l.length - i - 1) / 2 < 64 := by omega
  simp only [U512.byte, if_pos hb, R_bind_ok, ofList_packed hl]
  have hv := value_getElem l i hi
  rw [show l.length - 1 - i = l.length - i - 1 by omega] at hv
  rw [hv]
  generalize l.length - i - 1 = j
  have hev : isEven j = decide (j % 2 = 0) := by
    unfold isEven
    rw [Nat.and_one_is_mod]
    rfl
  rw [hev]
  have e256 : (256 : Nat) ^ (j / 2) = 16 ^ (2 * (j / 2)) := by rw [Nat.pow_mul]
  rcases Nat.mod_two_eq_zero_or_one j with h0 | h1
  · have hj : 2 * (j / 2) = j := by omega
    simp only [h0, decide_true, R_pure]
    rw [e256, hj, show (15 : Nat) = 2 ^ 4 - 1 by rfl, Nat.and_two_pow_sub_one_eq_mod]
    congr 1; omega
  · have hj : 2 * (j / 2) + 1 = j := by omega
    simp only [h1, decide_false, R_pure, Nat.one_ne_zero]
    congr 1
    rw [e256]
    have : value l / 16 ^ j = value l / 16 ^ (2 * (j / 2)) / 16 := by
      rw [Nat.div_div_eq_div_mul, ← Nat.pow_succ, Nat.succ_eq_add_one, hj]
    rw [this]
    generalize value l / 16 ^ (2 * (j / 2)) = w
    rw [Nat.shiftRight_eq_div_pow]
    have hlt : w % 256 < 256 := Nat.mod_lt _ (by decide)
    have key : ∀ b, b < 256 → (b &&& 0b11110000) / 2 ^ 4 = b / 16 := by
      set_option maxRecDepth 10000 in decide
    rw [key _ hlt]; omega

theorem getNibble_panic {n : Nibbles} {i : Nat} (hi : n.count ≤ i) (hP : P.overflowChecks = true) :
    n.getNibble P i = .error .overflow := by
  unfold getNibble usub
  by_cases h : i ≤ n.count
  · have : n.count = i := by omega
    simp [this, hP]
  · simp [h, hP]

theorem getNibbleRange_ok {l : Key} {s e : Nat} (hl : l.length ≤ 128) (hse : s ≤ e)
    (he : e ≤ l.length) (hm : e - s < 128) :
    (ofList l).getNibbleRange P s e = .ok (ofList ((l.take e).drop s)) := by
  unfold getNibbleRange
  rw [usub_ok hse, R_bind_ok, ofList_count, usub_ok he, R_bind_ok, umul_ok (by omega), R_bind_ok,
    umul_ok (by omega), R_bind_ok, createMask_ok (by omega), R_bind_ok]
  simp only [R_pure]
  congr 1
  apply eq_ofList
  · simp; omega
  · simp; omega
  · change BitVec.toNat (w := 512) ((_ &&& (ones _ <<< _)) >>> _) = _
    rw [range_toNat, ofList_packed hl, value_drop, value_take, sixteen_pow, sixteen_pow]
    simp only [List.length_take, Nat.min_eq_left he]
    rw [Nat.mul_comm 4, Nat.mul_comm 4]

theorem truncateFront_ok {l : Key} {n : Nat} (hl : l.length ≤ 128) (hm : min n l.length < 128) :
    (ofList l).truncateFront P n = .ok (ofList (l.drop n)) := by
  have hmt : (ofList l).minTruncate n = min n l.length := by
    unfold minTruncate
    rw [ofList_count]
    by_cases h : l.length ≥ n
    · simp [h]
    · simp [h, Nat.min_eq_right (by omega : l.length ≤ n)]
  unfold truncateFront
  simp only [hmt]
  have hle : min n l.length ≤ l.length := Nat.min_le_right _ _
  have hdrop : l.drop n = l.drop (min n l.length) := by
    by_cases h : n ≤ l.length
    · rw [Nat.min_eq_left h]
    · rw [Nat.min_eq_right (by omega), List.drop_of_length_le (by omega), List.drop_length]
  rw [hdrop]
  generalize min n l.length = m at *
  rw [ofList_count, usub_ok hle, R_bind_ok, umul_ok (by omega), R_bind_ok,
    umul_ok (by omega), R_bind_ok, createMask_ok (by omega), R_bind_ok, R_bind_ok]
  simp only [R_pure]
  congr 1
  apply eq_ofList
  · simp; omega
  · simp
  · change BitVec.toNat (w := 512) (_ &&& ~~~ (ones _ <<< _)) = _
    rw [truncFront_toNat, ofList_packed hl, value_drop, sixteen_pow, Nat.mul_comm 4]
    rw [ofList_packed hl]
    have := value_lt l
    rw [sixteen_pow] at this
    rw [← Nat.add_mul, Nat.sub_add_cancel hle, Nat.mul_comm]; exact this

theorem truncateBack_ok {l : Key} {n : Nat} (hl : l.length ≤ 128) (hm : min n l.length < 128) :
    (ofList l).truncateBack P n = .ok (ofList (l.take (l.length - n))) := by
  have hmt : (ofList l).minTruncate n = min n l.length := by
    unfold minTruncate
    rw [ofList_count]
    by_cases h : l.length ≥ n
    · simp [h]
    · simp [h, Nat.min_eq_right (by omega : l.length ≤ n)]
  unfold truncateBack
  simp only [hmt]
  have hle : min n l.length ≤ l.length := Nat.min_le_right _ _
  have htake : l.take (l.length - n) = l.take (l.length - min n l.length) := by
    congr 1; omega
  rw [htake]
  generalize min n l.length = m at *
  rw [umul_ok (by omega), R_bind_ok, R_bind_ok, createMask_ok (by omega), R_bind_ok, ofList_count,
    usub_ok hle, R_bind_ok]
  simp only [R_pure]
  congr 1
  apply eq_ofList
  · simp; omega
  · simp
  · change BitVec.toNat (w := 512) ((_ &&& ~~~ (ones _)) >>> _) = _
    rw [truncBack_toNat, ofList_packed hl, value_take, sixteen_pow]
    congr 2; omega

theorem popNextFront_ok {d : Fin 16} {l : Key} (hl : (d :: l).length ≤ 128) :
    (ofList (d :: l)).popNextFront P = .ok (d.val, ofList l) := by
  unfold popNextFront
  rw [getNibble_ok P hl (by simp), R_bind_ok, truncateFront_ok P hl (by simp), R_bind_ok]
  simp

theorem popNextBack_ok {d : Fin 16} {l : Key} (hl : (l ++ [d]).length ≤ 128) :
    (ofList (l ++ [d])).popNextBack P = .ok (d.val, ofList l) := by
  unfold popNextBack
  rw [ofList_count, usub_ok (by simp), R_bind_ok, getNibble_ok P hl (by simp), R_bind_ok,
    truncateBack_ok P hl (by simp), R_bind_ok]
  simp

theorem splitAtIdx_ok {l : Key} {i : Nat} (hl : l.length ≤ 128) (hi : i ≤ l.length)
    (hm : l.length - i < 128) :
    (ofList l).splitAtIdx P i = .ok (ofList (l.take i), ofList (l.drop i)) := by
  unfold splitAtIdx
  rw [ofList_count, usub_ok hi, R_bind_ok, umul_ok (by omega), R_bind_ok,
    createMask_ok (by omega), R_bind_ok]
  simp only [R_pure, R_bind_ok]
  congr 2
  · apply eq_ofList
    · simp; omega
    · simp; omega
    · change BitVec.toNat (w := 512) ((_ &&& ~~~ (ones _)) >>> _) = _
      rw [truncBack_toNat, ofList_packed hl, value_take, sixteen_pow, Nat.mul_comm 4]
  · apply eq_ofList
    · simp; omega
    · simp
    · change BitVec.toNat (w := 512) (_ &&& ones _) = _
      rw [and_ones_toNat, ofList_packed hl, value_drop, sixteen_pow, Nat.mul_comm 4]

theorem splitAtIdxPrefix_ok {l : Key} {i : Nat} (hl : l.length ≤ 128) (hi : i ≤ l.length)
    (hm : i < 128) :
    (ofList l).splitAtIdxPrefix P i = .ok (ofList (l.take i)) := by
  unfold splitAtIdxPrefix
  rw [ofList_count, usub_ok hi, R_bind_ok, umul_ok (by omega), R_bind_ok, umul_ok (by omega),
    R_bind_ok, createMask_ok (by omega), R_bind_ok]
  simp only [R_pure]
  congr 1
  apply eq_ofList
  · simp; omega
  · simp; omega
  · change BitVec.toNat (w := 512) ((_ &&& (ones _ <<< _)) >>> _) = _
    rw [range_toNat, ofList_packed hl]
    have h := value_drop (l.take i) 0
    rw [List.drop_zero, value_take, List.length_take, Nat.sub_zero, Nat.min_eq_left hi] at h
    rw [value_take, h, sixteen_pow, sixteen_pow, Nat.mul_comm 4, Nat.mul_comm 4]

theorem splitAtIdxPostfix_ok {l : Key} {i : Nat} (hl : l.length ≤ 128) (hi : i ≤ l.length)
    (hm : l.length - i < 128) :
    (ofList l).splitAtIdxPostfix P i = .ok (ofList (l.drop i)) := by
  unfold splitAtIdxPostfix
  rw [ofList_count, usub_ok hi, R_bind_ok, umul_ok (by omega), R_bind_ok,
    createMask_ok (by omega), R_bind_ok]
  simp only [R_pure]
  congr 1
  apply eq_ofList
  · simp; omega
  · simp
  · change BitVec.toNat (w := 512) (_ &&& ones _) = _
    rw [and_ones_toNat, ofList_packed hl, value_drop, sixteen_pow, Nat.mul_comm 4]

theorem mergeNibbles_ok {a b : Key} (h : a.length + b.length ≤ 64) :
    (ofList a).mergeNibbles P (ofList b) = .ok (ofList (a ++ b)) := by
  unfold mergeNibbles
  rw [ofList_count, ofList_count, uadd_ok (by omega), R_bind_ok]
  simp only [rassert, decide_eq_true h, if_true, R_bind_ok]
  rw [umul_ok (by omega)]
  simp only [R_bind_ok, R_pure]
  congr 1
  have hv := value_append a b
  have hlt := value_lt_512 (l := a ++ b) (by simp; omega)
  have hb := value_lt b
  rw [sixteen_pow, Nat.mul_comm 4] at hb
  rw [sixteen_pow, Nat.mul_comm 4] at hv
  have e1 := ofList_packed (l := a) (by omega)
  have e2 := ofList_packed (l := b) (by omega)
  apply eq_ofList
  · simp; omega
  · simp
  · rw [shl_or_toNat _ _ _ (by rw [e2]; exact hb) (by rw [e1, e2, ← hv]; exact hlt), e1, e2, hv]

theorem mergeNibble_ok {a : Key} {d : Nat} (hd : d < 16) (h : a.length < 64) :
    (ofList a).mergeNibble P d = .ok (ofList (a ++ [⟨d, hd⟩])) := by
  have hm := mergeNibbles_ok P (a := a) (b := [⟨d, hd⟩]) (by simp; omega)
  unfold mergeNibbles at hm
  rw [ofList_count, ofList_count, uadd_ok (by simp; omega), R_bind_ok] at hm
  have h' : a.length + [(⟨d, hd⟩ : Fin 16)].length ≤ 64 := by simp; omega
  simp only [rassert, decide_eq_true h', if_true, R_bind_ok] at hm
  rw [umul_ok (by simp)] at hm
  unfold mergeNibble appendSafetyAsserts
  rw [uadd_ok (by simp; omega)]
  rw [show rassert (decide ((ofList a).count < 64)) = .ok () from rassert_ok (decide_eq_true h),
    rassert_ok (decide_eq_true hd)]
  simp only [R_bind_ok, R_pure, ofList_count]
  rw [← hm]
  simp [ofList, value]

theorem pushNibbleBack_eq_mergeNibble (n : Nibbles) (d : Nat) :
    n.pushNibbleBack P d = n.mergeNibble P d := rfl

theorem pushNibblesFront_ok {a b : Key} (h : a.length + b.length ≤ 64) :
    (ofList b).pushNibblesFront P (ofList a) = .ok (ofList (a ++ b)) := by
  have hm := mergeNibbles_ok P h
  unfold mergeNibbles at hm
  unfold pushNibblesFront
  rw [ofList_count, ofList_count] at *
  have h' : b.length + a.length ≤ 64 := by omega
  rw [uadd_ok (by omega), R_bind_ok] at *
  simp only [rassert, decide_eq_true h, decide_eq_true h', if_true, R_bind_ok] at *
  rw [umul_ok (by omega)] at *
  simp only [R_bind_ok, R_pure] at *
  rw [← hm, BitVec.or_comm, Nat.add_comm, Nat.mul_comm]

theorem pushNibbleFront_ok {b : Key} {d : Nat} (hd : d < 16) (h : b.length < 64) :
    (ofList b).pushNibbleFront P d = .ok (ofList (⟨d, hd⟩ :: b)) := by
  have hm := pushNibblesFront_ok P (a := [⟨d, hd⟩]) (b := b) (by simp; omega)
  unfold pushNibblesFront at hm
  rw [ofList_count, ofList_count, uadd_ok (by simp; omega), R_bind_ok] at hm
  have h' : b.length + [(⟨d, hd⟩ : Fin 16)].length ≤ 64 := by simp; omega
  simp only [rassert, decide_eq_true h', if_true, R_bind_ok] at hm
  rw [umul_ok (by omega)] at hm
  unfold pushNibbleFront appendSafetyAsserts
  rw [uadd_ok (by simp; omega)]
  rw [show rassert (decide ((ofList b).count < 64)) = .ok () from rassert_ok (decide_eq_true h),
    rassert_ok (decide_eq_true hd)]
  simp only [R_bind_ok, R_pure, ofList_count]
  rw [umul_ok (by omega)]
  have e : ofList (⟨d, hd⟩ :: b) = ofList ([⟨d, hd⟩] ++ b) := rfl
  rw [e]
  simp only [R_bind_ok]
  have : (ofList [⟨d, hd⟩]).packed = BitVec.ofNat 512 d := by simp [ofList, value]
  rw [this] at hm
  exact hm

theorem mergeNibbles_err {P : Profile} {a b : Key} (ha : a.length ≤ 128) (hb : b.length ≤ 128)
    (h : 64 < a.length + b.length) :
    (ofList a).mergeNibbles P (ofList b) = .error .assertFailed := by
  unfold mergeNibbles
  rw [ofList_count, ofList_count, uadd_ok (by omega), R_bind_ok,
    rassert_err (decide_eq_false (by omega))]
  rfl

theorem pushNibblesFront_err {P : Profile} {a b : Key} (ha : a.length ≤ 128) (hb : b.length ≤ 128)
    (h : 64 < a.length + b.length) :
    (ofList b).pushNibblesFront P (ofList a) = .error .assertFailed := by
  unfold pushNibblesFront
  rw [ofList_count, ofList_count, uadd_ok (by omega), R_bind_ok,
    rassert_err (decide_eq_false (by omega))]
  rfl

theorem mergeNibble_err {P : Profile} {n : Nibbles} {d : Nat} (h : 64 ≤ n.count ∨ 16 ≤ d) :
    n.mergeNibble P d = .error .assertFailed := by
  unfold mergeNibble appendSafetyAsserts
  by_cases h1 : n.count < 64
  · have h2 : ¬ d < 16 := by omega
    rw [rassert_ok (decide_eq_true h1), R_bind_ok, rassert_err (decide_eq_false h2)]; rfl
  · rw [rassert_err (decide_eq_false h1)]; rfl

theorem pushNibbleFront_err {P : Profile} {n : Nibbles} {d : Nat} (h : 64 ≤ n.count ∨ 16 ≤ d) :
    n.pushNibbleFront P d = .error .assertFailed := by
  unfold pushNibbleFront appendSafetyAsserts
  by_cases h1 : n.count < 64
  · have h2 : ¬ d < 16 := by omega
    rw [rassert_ok (decide_eq_true h1), R_bind_ok, rassert_err (decide_eq_false h2)]; rfl
  · rw [rassert_err (decide_eq_false h1)]; rfl

end Nibbles
end EthTrie
