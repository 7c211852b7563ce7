import Verif.Nibbles.Lemmas
import Verif.Spec.Bytes

/-!
# Further facts about packed sequences: reverse, comparison, bytes, hex-prefix encoding
-/

namespace EthTrie
open Spec

set_option exponentiation.threshold 600

namespace Nibbles
variable (P : Profile)

/-! ## reverse -/

theorem ones_four : ones 4 = 0xf#512 := by decide

theorem reverse_ok {l : Key} (hl : l.length ≤ 128) : (ofList l).reverse = ofList l.reverse := by
  unfold reverse
  have inv : ∀ i, i ≤ l.length →
      (List.range i).foldl (fun (st : U512 × U512) (i : Nat) =>
        (st.1 <<< 4, st.2 <<< 4 ||| ((ofList l).packed &&& st.1) >>> (i * 4))) (0xf#512, 0#512)
      = ((0xf#512) <<< (4 * i), (ofList ((l.drop (l.length - i)).reverse)).packed) := by
    intro i
    induction i with
    | zero => intro _; simp [ofList]
    | succ i ih =>
      intro hi
      rw [List.range_succ, List.foldl_append, ih (by omega)]
      simp only [List.foldl_cons, List.foldl_nil]
      congr 1
      · rw [← BitVec.shiftLeft_add]
        congr 1
      · apply BitVec.eq_of_toNat_eq
        have hlen : (List.drop (l.length - i) l).reverse.length = i := by simp; omega
        have hlen' : (List.drop (l.length - (i + 1)) l).reverse.length = i + 1 := by simp; omega
        rw [ofList_packed (by rw [hlen']; omega)]
        have hd : l.drop (l.length - (i + 1)) = l[l.length - (i + 1)] :: l.drop (l.length - i) := by
          have := List.drop_eq_getElem_cons (l := l) (i := l.length - (i + 1)) (by omega)
          rw [this]; congr 2; omega
        have hnib : (((ofList l).packed &&& (0xf#512) <<< (4 * i)) >>> (i * 4)).toNat
            = (l[l.length - (i + 1)]).val := by
          rw [← ones_four, Nat.mul_comm i 4, range_toNat, ofList_packed hl, value_getElem,
            ← sixteen_pow]
          congr 3; omega
        have e := ofList_packed (l := (List.drop (l.length - i) l).reverse) (by rw [hlen]; omega)
        have hv : value (List.drop (l.length - (i + 1)) l).reverse
            = value (List.drop (l.length - i) l).reverse * 2 ^ 4 + (l[l.length - (i + 1)]).val := by
          rw [hd, List.reverse_cons, value_snoc, show (2 : Nat) ^ 4 = 16 by rfl]
        have hlt := value_lt_512 (l := (List.drop (l.length - (i + 1)) l).reverse)
          (by rw [hlen']; omega)
        rw [shl_or_toNat]
        · rw [e, hnib, hv]
        · rw [hnib]; exact (l[l.length - (i + 1)]).isLt
        · rw [e, hnib, ← hv]; exact hlt
  have := inv l.length (Nat.le_refl _)
  simp only [ofList_count]
  rw [this]
  simp [ofList]

/-! ## comparison -/

theorem allEqFrom_ok {a b : Key} (ha : a.length ≤ 128) (hb : b.length ≤ 128) (m i : Nat)
    (h1 : i + m ≤ a.length) (h2 : i + m ≤ b.length) :
    allEqFrom P (ofList a) (ofList b) i m
      = .ok (decide ((a.drop i).take m = (b.drop i).take m)) := by
  induction m generalizing i with
  | zero => simp [allEqFrom]
  | succ m ih =>
    rw [allEqFrom, getNibble_ok P ha (by omega), R_bind_ok, getNibble_ok P hb (by omega), R_bind_ok,
      ih (i + 1) (by omega) (by omega)]
    rw [List.drop_eq_getElem_cons (l := a) (i := i) (by omega),
      List.drop_eq_getElem_cons (l := b) (i := i) (by omega)]
    by_cases h : a[i] = b[i]
    · simp only [h, beq_self_eq_true, if_true, List.take_succ_cons, List.cons.injEq, true_and]
    · have h' : ((a[i]).val == (b[i]).val) = false := by
        simpa using fun e => h (Fin.ext e)
      simp only [h, h', List.take_succ_cons, List.cons.injEq, false_and, decide_false, R_pure,
        Bool.false_eq_true, if_false]

theorem identicalUpToSmallest_ok {a b : Key} (ha : a.length ≤ 128) (hb : b.length ≤ 128) :
    identicalUpToSmallest P (ofList a) (ofList b)
      = .ok (decide (a <+: b ∨ b <+: a)) := by
  unfold identicalUpToSmallest
  rw [allEqFrom_ok P ha hb _ _ (by simp) (by simp)]
  simp only [List.drop_zero, ofList_count]
  congr 1
  apply decide_eq_decide.2
  constructor
  · intro h
    rcases Nat.le_total a.length b.length with hl | hl
    · left
      rw [Nat.min_eq_left hl, List.take_length] at h
      exact List.prefix_iff_eq_take.2 h
    · right
      rw [Nat.min_eq_right hl, List.take_length] at h
      exact List.prefix_iff_eq_take.2 h.symm
  · rintro (h | h)
    · have hl := h.length_le
      rw [Nat.min_eq_left hl, List.take_length]
      exact List.prefix_iff_eq_take.1 h
    · have hl := h.length_le
      rw [Nat.min_eq_right hl, List.take_length]
      exact (List.prefix_iff_eq_take.1 h).symm

theorem mask_shift {k : Nat} (h : 4 * k + 8 ≤ 512) :
    ((0xf#512) <<< (4 * (k + 1))) >>> 4 = (0xf#512) <<< (4 * k) := by
  rw [← ones_four]
  apply BitVec.eq_of_getLsbD_eq
  intro i hi
  simp only [BitVec.getLsbD_ushiftRight, BitVec.getLsbD_shiftLeft, ones_getLsbD]
  by_cases h1 : i < 4 * k
  · have h2 : 4 + i < 4 * (k + 1) := by omega
    simp [h1, h2]
  · have h2 : ¬ 4 + i < 4 * (k + 1) := by omega
    have h3 : 4 + i - 4 * (k + 1) = i - 4 * k := by omega
    simp only [h1, h2, h3, hi]
    by_cases h4 : 4 + i < 512
    · simp [h4]
    · have : ¬ (i - 4 * k < 4) := by omega
      simp [this]

theorem masked_eq_iff (x y : U512) (s : Nat) :
    x &&& ((0xf#512) <<< s) = y &&& ((0xf#512) <<< s) ↔
      x.toNat / 2 ^ s % 16 = y.toNat / 2 ^ s % 16 := by
  rw [← ones_four]
  have hx := range_toNat x 4 s
  have hy := range_toNat y 4 s
  have e : ∀ z : U512, z &&& (ones 4 <<< s) = ((z &&& (ones 4 <<< s)) >>> s) <<< s := by
    intro z
    apply BitVec.eq_of_getLsbD_eq
    intro i hi
    simp only [BitVec.getLsbD_and, BitVec.getLsbD_ushiftRight, BitVec.getLsbD_shiftLeft,
      ones_getLsbD, hi]
    by_cases h : i < s
    · simp [h]
    · have : s + (i - s) = i := by omega
      simp [h, this, hi]
  constructor
  · intro h
    rw [← h, hx] at hy
    exact hy
  · intro h
    rw [e x, e y]
    congr 1
    apply BitVec.eq_of_toNat_eq
    rw [hx, hy]
    exact h

theorem findDiffLoop_ok {a b : Key} (hl : a.length ≤ 128) (hab : a.length = b.length) (m i : Nat)
    (hm : i + m + 1 = a.length) :
    findDiffLoop (ofList a).packed (ofList b).packed ((0xf#512) <<< (4 * m)) i (m + 1)
      = i + cpl (a.drop i) (b.drop i) := by
  induction m generalizing i with
  | zero =>
    rw [findDiffLoop, findDiffLoop]
    rw [List.drop_eq_getElem_cons (l := a) (i := i) (by omega),
      List.drop_eq_getElem_cons (l := b) (i := i) (by omega)]
    have h1 : a.drop (i + 1) = [] := List.drop_of_length_le (by omega)
    have h2 : b.drop (i + 1) = [] := List.drop_of_length_le (by omega)
    rw [h1, h2, cpl]
    have hk : ((ofList a).packed &&& (0xf#512) <<< (4 * 0) = (ofList b).packed &&& (0xf#512) <<< (4 * 0))
        ↔ a[i] = b[i] := by
      rw [masked_eq_iff, ofList_packed hl, ofList_packed (by omega), ← sixteen_pow, Fin.ext_iff,
        value_getElem, value_getElem]
      rw [show a.length - 1 - i = 0 by omega, show b.length - 1 - i = 0 by omega]
    by_cases h : a[i] = b[i]
    · simp only [bne_iff_ne, ne_eq, hk, h, not_true_eq_false, if_false, if_true, cpl]
    · simp only [bne_iff_ne, ne_eq, hk, h, not_false_eq_true, if_false, if_true]; rfl
  | succ m ih =>
    rw [findDiffLoop]
    rw [List.drop_eq_getElem_cons (l := a) (i := i) (by omega),
      List.drop_eq_getElem_cons (l := b) (i := i) (by omega), cpl]
    have hk : ((ofList a).packed &&& (0xf#512) <<< (4 * (m + 1))
          = (ofList b).packed &&& (0xf#512) <<< (4 * (m + 1))) ↔ a[i] = b[i] := by
      rw [masked_eq_iff, ofList_packed hl, ofList_packed (by omega), ← sixteen_pow, Fin.ext_iff,
        value_getElem, value_getElem]
      rw [show a.length - 1 - i = m + 1 by omega, show b.length - 1 - i = m + 1 by omega]
    by_cases h : a[i] = b[i]
    · simp only [bne_iff_ne, ne_eq, hk, h, not_true_eq_false, if_false, if_true]
      rw [mask_shift (by omega), ih (i + 1) (by omega)]
      omega
    · simp only [bne_iff_ne, ne_eq, hk, h, not_false_eq_true, if_false, if_true]; rfl

theorem findDiffEqualLengths_ok {a b : Key} (hl : a.length ≤ 128) (hab : a.length = b.length) :
    findDiffEqualLengths P (ofList a) (ofList b) = .ok (cpl a b) := by
  unfold findDiffEqualLengths
  rw [rassert_ok (by simp [hab]), R_bind_ok]
  by_cases h : a.length = 0
  · have ha := List.length_eq_zero_iff.1 h
    subst ha
    simp [cpl]
  · rw [if_neg (by simpa using h), ofList_count, usub_ok (by omega), R_bind_ok, umul_ok (by omega), R_bind_ok, R_pure]
    congr 1
    obtain ⟨m, hm⟩ : ∃ m, a.length = m + 1 := ⟨a.length - 1, by omega⟩
    rw [hm, Nat.add_sub_cancel, Nat.mul_comm, findDiffLoop_ok hl hab m 0 (by omega)]
    simp

theorem cpl_take_min (a b : Key) :
    cpl (a.take (min a.length b.length)) (b.take (min a.length b.length)) = cpl a b := by
  induction a generalizing b with
  | nil => simp [cpl]
  | cons x xs ih =>
    cases b with
    | nil => simp [cpl]
    | cons y ys =>
      have : min (x :: xs).length (y :: ys).length = min xs.length ys.length + 1 := by simp
      rw [this, List.take_succ_cons, List.take_succ_cons, cpl, cpl, ih]

theorem findDiffDifferentLengths_ok {a b : Key} (ha : a.length ≤ 128) (hb : b.length ≤ 128)
    (hm : min a.length b.length < 128) :
    findDiffDifferentLengths P (ofList a) (ofList b) = .ok (cpl a b) := by
  unfold findDiffDifferentLengths
  simp only [ofList_count]
  rw [getNibbleRange_ok P ha (by omega) (by omega) (by omega), R_bind_ok,
    getNibbleRange_ok P hb (by omega) (by omega) (by omega), R_bind_ok,
    findDiffEqualLengths_ok P (by simp; omega) (by simp)]
  simp [cpl_take_min]

/-! ## slices -/

theorem popNibblesFront_ok {l : Key} {n : Nat} (hl : l.length ≤ 128) (hn : n ≤ l.length)
    (hm : n < 128) :
    (ofList l).popNibblesFront P n = .ok (ofList (l.take n), ofList (l.drop n)) := by
  unfold popNibblesFront
  rw [getNibbleRange_ok P hl (Nat.zero_le _) hn (by omega), R_bind_ok,
    truncateFront_ok P hl (by omega), R_bind_ok]
  simp

theorem popNibblesBack_ok {l : Key} {n : Nat} (hl : l.length ≤ 128) (hn : n ≤ l.length)
    (hm : n < 128) :
    (ofList l).popNibblesBack P n
      = .ok (ofList (l.drop (l.length - n)).reverse, ofList (l.take (l.length - n))) := by
  unfold popNibblesBack
  rw [ofList_count, usub_ok hn, R_bind_ok, getNibbleRange_ok P hl (by omega) (by omega) (by omega),
    R_bind_ok, reverse_ok (by simp; omega), truncateBack_ok P hl (by omega), R_bind_ok]
  simp

/-- Popping more than there is panics with overflow checks. -/
theorem popNibblesFront_panic {n : Nibbles} {k : Nat} (h : n.count < k)
    (hP : P.overflowChecks = true) : n.popNibblesFront P k = .error .overflow := by
  unfold popNibblesFront getNibbleRange
  rw [usub_ok (Nat.zero_le _), R_bind_ok]
  have : ¬ k ≤ n.count := by omega
  simp [usub, this, hP]

/-! ## bytes -/

theorem toBE_eq (x : U512) : x.toBE = beBytes x.toNat 64 := range_map_beBytes x.toNat 64

theorem fromBE_toNat {bs : Bytes} (h : bs.length ≤ 64) : (U512.fromBE bs).toNat = bytesVal bs := by
  simp only [U512.fromBE, BitVec.toNat_ofNat]
  apply Nat.mod_eq_of_lt
  have h1 := bytesVal_lt bs
  have : (256 : Nat) ^ bs.length ≤ 256 ^ 64 := Nat.pow_le_pow_right (by decide) h
  have e : (256 : Nat) ^ 64 = 2 ^ 512 := by rw [show (256 : Nat) = 2 ^ 8 by rfl, ← Nat.pow_mul]
  exact lt_of_lt_of_le h1 (e ▸ this)

theorem fromLE_eq (bs : Bytes) : U512.fromLE bs = U512.fromBE bs.reverse := by
  simp [U512.fromLE, U512.fromBE, List.foldl_reverse]

theorem fromBE_eq_ofList {bs : Bytes} (h : bs.length ≤ 64) {c : Nat} (hc : c = 2 * bs.length) :
    (⟨c, U512.fromBE bs⟩ : Nibbles) = ofList (nibblesOfBytes bs) := by
  apply eq_ofList
  · simp; omega
  · simp [hc]
  · rw [value_nibblesOfBytes]; exact fromBE_toNat h

theorem fromBytesBE_ok {bs : Bytes} (h1 : bs ≠ []) (h2 : bs.length ≤ 33) :
    fromBytesBE bs = .ok (ofList (nibblesOfBytes bs)) := by
  have : ¬ (bs.length > 33) := by omega
  have h0 : bs.isEmpty = false := by simpa using h1
  simp only [fromBytesBE, fromBytes, h0, this, if_false, Bool.false_eq_true]
  rw [fromBE_eq_ofList (by omega) (by omega)]

theorem fromBytesLE_ok {bs : Bytes} (h1 : bs ≠ []) (h2 : bs.length ≤ 33) :
    fromBytesLE bs = .ok (ofList (nibblesOfBytes bs.reverse)) := by
  have : ¬ (bs.length > 33) := by omega
  have h0 : bs.isEmpty = false := by simpa using h1
  simp only [fromBytesLE, fromBytes, h0, this, if_false, Bool.false_eq_true, fromLE_eq]
  rw [fromBE_eq_ofList (by simp; omega) (by simp; omega)]

theorem fromH256BE_eq (h : H256) : fromH256BE h = ofList (nibblesOfBytes h.toList) :=
  fromBE_eq_ofList (by simp) (by simp)

theorem fromH256LE_eq (h : H256) : fromH256LE h = ofList (nibblesOfBytes h.toList.reverse) := by
  unfold fromH256LE
  rw [fromLE_eq]
  exact fromBE_eq_ofList (by simp) (by simp)

theorem bytesOfNibbles_eq (l : Key) :
    bytesOfNibbles l = beBytes (value l) ((l.length + 1) / 2) := by
  unfold bytesOfNibbles
  split
  next h => rw [pairs_eq_beBytes l h]; congr 1; omega
  next h =>
    have hh : (0 :: l : Key).length % 2 = 0 := by simp only [List.length_cons]; omega
    have hv : value (0 :: l : Key) = value l := by rw [value_cons]; simp
    rw [pairs_eq_beBytes _ hh, hv]; simp only [List.length_cons]

theorem bytesBE_ok {l : Key} (h : l.length ≤ 128) :
    (ofList l).bytesBE P = .ok (bytesOfNibbles l) := by
  unfold bytesBE minBytes
  rw [ofList_count, uadd_ok (by omega)]
  simp only [R_bind_ok, R_pure]
  rw [usub_ok (by omega), R_bind_ok, toBE_eq, sliceFrom, beBytes_length, if_pos (by omega),
    ofList_packed h, bytesOfNibbles_eq]
  have := beBytes_drop (value l) (64 - (l.length + 1) / 2) ((l.length + 1) / 2)
  rw [show 64 - (l.length + 1) / 2 + (l.length + 1) / 2 = 64 by omega] at this
  rw [this]

/-! ## hex-prefix encoding -/

theorem isEven_eq (n : Nat) : isEven n = decide (n % 2 = 0) := by
  unfold isEven
  rw [Nat.and_one_is_mod]
  rfl

theorem toHexPrefix_ok {l : Key} (h : l.length ≤ 128) (t : Bool) :
    (ofList l).toHexPrefixEncoding P t = .ok (HP l t) := by
  have hbuf : (0 : UInt8) :: (ofList l).packed.toBE = beBytes (value l) 65 := by
    rw [toBE_eq, ofList_packed h, show 65 = 1 + 64 by rfl, beBytes_add]
    have e : value l / 256 ^ 64 = 0 := by
      apply Nat.div_eq_of_lt
      have := value_lt_512 h
      have e : (256 : Nat) ^ 64 = 2 ^ 512 := by rw [show (256 : Nat) = 2 ^ 8 by rfl, ← Nat.pow_mul]
      rw [e]; exact this
    have e1 : beBytes 0 1 = [0] := rfl
    rw [e, e1, List.singleton_append]
  unfold toHexPrefixEncoding
  rw [ofList_count, uadd_ok (by omega), R_bind_ok, uadd_ok (by omega), R_bind_ok]
  simp only [hbuf]
  rw [usub_ok (by omega), R_bind_ok]
  obtain ⟨n, hn⟩ : ∃ n, (l.length + 1 + 1) / 2 = n + 1 := ⟨(l.length + 1 + 1) / 2 - 1, by omega⟩
  rw [hn]
  have hn' : n ≤ 64 := by omega
  -- the part of the buffer from the flag byte on
  have hd : (beBytes (value l) 65).drop (65 - (n + 1)) = beBytes (value l) (n + 1) := by
    have := beBytes_drop (value l) (65 - (n + 1)) (n + 1)
    rwa [show 65 - (n + 1) + (n + 1) = 65 by omega] at this
  have hb1 : beBytes (value l) (n + 1)
      = UInt8.ofNat (value l / 256 ^ n % 256) :: beBytes (value l) n := by
    rw [Nat.add_comm, beBytes_add]; rfl
  have hblen : (beBytes (value l) 65).length = 65 := beBytes_length _ _
  generalize beBytes (value l) 65 = buf at hd hblen ⊢
  have hget : rindex buf (65 - (n + 1)) = .ok (UInt8.ofNat (value l / 256 ^ n % 256)) := by
    unfold rindex
    have : buf[65 - (n + 1)]? = (buf.drop (65 - (n + 1)))[0]? := by simp
    rw [this, hd, hb1]; rfl
  rw [hget, R_bind_ok]
  simp only [sliceFrom, List.length_set, hblen]
  rw [if_pos (by omega), List.drop_set, if_neg (by omega), hd, hb1]
  simp only [Nat.sub_self, List.set_cons_zero]
  congr 1
  unfold HP
  have hex : (256 : Nat) ^ n = 16 ^ (2 * n) := by rw [Nat.pow_mul]
  by_cases he : l.length % 2 = 0
  · rw [if_pos he]
    have hn2 : 2 * n = l.length := by omega
    have hz : value l / 256 ^ n = 0 := by
      apply Nat.div_eq_of_lt
      rw [hex, hn2]; exact value_lt l
    rw [hz, isEven_eq, pairs_eq_beBytes l he]
    have : l.length / 2 = n := by omega
    rw [this]
    congr 1
    simp only [he, decide_true]
    cases t <;> decide
  · rw [if_neg he]
    cases l with
    | nil => simp at he
    | cons x r =>
      simp only [List.length_cons] at he hn
      have hn2 : 2 * n = r.length := by omega
      have hx := x.isLt
      have hz : value (x :: r) / 256 ^ n = x.val := by
        rw [hex, hn2, value_cons, Nat.mul_comm, Nat.mul_add_div (Nat.pow_pos (by decide)),
          Nat.div_eq_of_lt (value_lt r)]; rfl
      have hb : beBytes (value (x :: r)) n = beBytes (value r) n := by
        rw [← beBytes_mod (value (x :: r)), ← beBytes_mod (value r), hex, hn2, value_cons,
          Nat.mul_comm, Nat.mul_add_mod]
      have hr : r.length / 2 = n := by omega
      rw [hz, hb, isEven_eq]
      change _ = UInt8.ofNat (16 * ((if t = true then 2 else 0) + 1) + x.val) :: pairs r
      rw [pairs_eq_beBytes r (by omega), hr]
      congr 1
      have : (List.length (x :: r) % 2 = 0) = False := by simp; omega
      simp only [this, decide_false]
      clear hz hb hn hb1 hd hget hbuf h he this
      revert x
      cases t <;> decide

end Nibbles
end EthTrie
