import Verif.Nibbles.Lemmas2

/-!
# Further facts about packed sequences: integers, strings, hex-prefix decoding, well-formedness
-/

namespace EthTrie
open Spec

set_option exponentiation.threshold 600

namespace Nibbles
variable (P : Profile)

theorem wf_cases {n : Nibbles} (h : n.WF) (hc : n.count ≤ 128) :
    ∃ l : Key, l.length ≤ 128 ∧ n = ofList l :=
  ⟨n.toList, by rw [toList_length]; exact hc, (ofList_toList h).symm⟩

/-! ## bit lengths -/

theorem bitLen_bounds {x : Nat} (h : x ≠ 0) : 2 ^ (bitLen x - 1) ≤ x ∧ x < 2 ^ bitLen x := by
  unfold bitLen
  rw [if_neg h]
  exact ⟨Nat.log2_self_le h, Nat.lt_log2_self⟩

theorem nibLen_of_bounds {x c : Nat} (h1 : 16 ^ c ≤ x) (h2 : x < 16 ^ (c + 1)) :
    (bitLen x + 3) / 4 = c + 1 := by
  have hx : x ≠ 0 := by
    have : 0 < 16 ^ c := Nat.pow_pos (by decide)
    omega
  obtain ⟨b1, b2⟩ := bitLen_bounds hx
  rw [sixteen_pow] at h1 h2
  have a1 : 4 * c < bitLen x := by
    by_contra hc
    exact absurd (lt_of_lt_of_le b2 (le_trans (Nat.pow_le_pow_right (by decide) (by omega)) h1))
      (lt_irrefl _)
  have a2 : bitLen x - 1 < 4 * (c + 1) := by
    by_contra hc
    exact absurd (lt_of_le_of_lt (le_trans (Nat.pow_le_pow_right (by decide) (by omega)) b1) h2)
      (lt_irrefl _)
  omega

/-- A sequence without leading zero. -/
def NoLeadingZero (l : Key) : Prop := l.head? ≠ some 0

theorem nibLen_value {l : Key} (h : NoLeadingZero l) : (bitLen (value l) + 3) / 4 = l.length := by
  cases l with
  | nil => rfl
  | cons d r =>
    apply nibLen_of_bounds
    · rw [value_cons]
      have : 1 ≤ d.val := by
        have : d ≠ 0 := by simpa [NoLeadingZero] using h
        have : d.val ≠ 0 := fun e => this (Fin.ext e)
        omega
      calc 16 ^ r.length = 1 * 16 ^ r.length := by omega
        _ ≤ d.val * 16 ^ r.length := Nat.mul_le_mul_right _ this
        _ ≤ _ := by omega
    · simpa using value_lt (d :: r)

theorem value_replicate_append (z : Nat) (l : Key) :
    value (List.replicate z 0 ++ l) = value l := by
  have : value (List.replicate z 0) = 0 := by
    induction z with
    | zero => rfl
    | succ z ih => rw [List.replicate_succ, value_cons, ih]; simp
  rw [value_append, this]; simp

theorem strip_zeros (l : Key) :
    ∃ z r, l = List.replicate z 0 ++ r ∧ NoLeadingZero r := by
  induction l with
  | nil => exact ⟨0, [], rfl, by simp [NoLeadingZero]⟩
  | cons d l ih =>
    by_cases h : d = 0
    · obtain ⟨z, r, e, hr⟩ := ih
      exact ⟨z + 1, r, by rw [h, e, List.replicate_succ]; rfl, hr⟩
    · exact ⟨0, d :: l, rfl, by simpa [NoLeadingZero] using h⟩

theorem nibLen_lt {x : Nat} : x < 16 ^ ((bitLen x + 3) / 4) := by
  by_cases h : x = 0
  · subst h; exact Nat.pow_pos (by decide)
  · obtain ⟨_, b2⟩ := bitLen_bounds h
    rw [sixteen_pow]
    exact lt_of_lt_of_le b2 (Nat.pow_le_pow_right (by decide) (by omega))

theorem bitLen_le {x w : Nat} (h : x < 2 ^ w) : bitLen x ≤ w := by
  by_cases h0 : x = 0
  · subst h0; simp [bitLen]
  · obtain ⟨b1, _⟩ := bitLen_bounds h0
    by_contra hc
    exact absurd (lt_of_le_of_lt (le_trans (Nat.pow_le_pow_right (by decide) (by omega)) b1) h)
      (lt_irrefl _)

/-- The base-16 digits of a number, without leading zeros. -/
theorem ofUInt_ok {w : Nat} (hw : w ≤ 512) (x : BitVec w) :
    ∃ l : Key, l.length ≤ 128 ∧ NoLeadingZero l ∧ value l = x.toNat ∧ ofUInt w x = ofList l := by
  have hbl : bitLen x.toNat ≤ w := bitLen_le x.isLt
  obtain ⟨z, r, hz, hr⟩ := strip_zeros (digits x.toNat 128)
  have hlen : z + r.length = 128 := by
    have := congrArg List.length hz
    simpa using this.symm
  have hv : value r = x.toNat := by
    have := congrArg value hz
    rw [value_replicate_append, value_digits, Nat.mod_eq_of_lt] at this
    · exact this.symm
    · rw [sixteen_pow]
      exact lt_of_lt_of_le x.isLt (Nat.pow_le_pow_right (by decide) (by omega))
  refine ⟨r, by omega, hr, hv, ?_⟩
  apply eq_ofList (by omega)
  · simp only [ofUInt]
    rw [Nat.sub_sub_self hbl, ← hv, nibLen_value hr]
  · simp only [ofUInt, BitVec.toNat_ofNat]
    rw [hv, Nat.mod_eq_of_lt]
    exact lt_of_lt_of_le x.isLt (Nat.pow_le_pow_right (by decide) hw)

theorem bytePadded_ok {l : Key} (hl : l.length ≤ 128) :
    (ofList l).bytePadded = ofList (if l.length % 2 = 0 then l else 0 :: l) := by
  apply eq_ofList
  · split
    · exact hl
    · simp only [List.length_cons]; omega
  · simp only [bytePadded, ofList_count]
    split
    · omega
    · simp only [List.length_cons]; omega
  · simp only [bytePadded, ofList_packed hl]
    split
    · rfl
    · rw [value_cons]; simp

/-! ## hex strings -/

/-- The hex digit character of a nibble. -/
def hexChar (upper : Bool) (d : Fin 16) : Char := hexDigit upper d.val

theorem hexEncode_eq (upper : Bool) (bs : Bytes) :
    hexEncode upper bs = (nibblesOfBytes bs).map (hexChar upper) := by
  induction bs with
  | nil => rfl
  | cons b bs ih =>
    rw [nibblesOfBytes_cons]
    simp only [hexEncode, List.flatMap_cons, List.map_cons] at ih ⊢
    rw [ih]
    have hb := b.toNat_lt
    simp only [hexChar, Fin.val_ofNat]
    rw [Nat.mod_eq_of_lt (a := b.toNat / 16) (by omega)]
    rfl

theorem asHexStr_ok {l : Key} (hl : l.length ≤ 128) (upper : Bool) :
    (ofList l).asHexStr P upper = .ok (['0', 'x'] ++ l.map (hexChar upper)) := by
  have hb := bytesBE_ok P hl
  unfold bytesBE at hb
  unfold asHexStr
  have hmb : (ofList l).minBytes P = .ok ((l.length + 1) / 2) := by
    unfold minBytes
    rw [ofList_count, uadd_ok (by omega)]; rfl
  rw [hmb, R_bind_ok] at hb ⊢
  rw [usub_ok (by omega), R_bind_ok] at hb ⊢
  rw [hb, R_bind_ok, hexEncode_eq, ofList_count, isEven_eq]
  unfold bytesOfNibbles
  by_cases h : l.length % 2 = 0
  · simp only [h, decide_true, if_true, R_pure]
    rw [nibblesOfBytes_pairs l h]
  · simp only [h, decide_false, if_false, R_pure]
    rw [nibblesOfBytes_pairs _ (by simp only [List.length_cons]; omega)]
    simp

theorem hexVal_hexChar : ∀ (upper : Bool) (d : Fin 16), hexVal (hexChar upper d) = some d.val := by
  decide

theorem hexVal_lt {c : Char} {v : Nat} (h : hexVal c = some v) : v < 16 := by
  have key : ∀ (a b : Char), a ≤ b ↔ a.toNat ≤ b.toNat := fun a b => Iff.rfl
  unfold hexVal at h
  simp only [key] at h
  have e0 : '0'.toNat = 48 := rfl
  have e9 : '9'.toNat = 57 := rfl
  have ea : 'a'.toNat = 97 := rfl
  have ef : 'f'.toNat = 102 := rfl
  have eA : 'A'.toNat = 65 := rfl
  have eF : 'F'.toNat = 70 := rfl
  split at h
  · simp only [Option.some.injEq] at h; omega
  · split at h
    · simp only [Option.some.injEq] at h; omega
    · split at h
      · simp only [Option.some.injEq] at h; omega
      · cases h

theorem hexVal_zero {c : Char} : hexVal c = some 0 ↔ c = '0' := by
  constructor
  · intro h
    have key : ∀ (a b : Char), a ≤ b ↔ a.toNat ≤ b.toNat := fun a b => Iff.rfl
    unfold hexVal at h
    simp only [key] at h
    have e0 : '0'.toNat = 48 := rfl
    have e9 : '9'.toNat = 57 := rfl
    have ea : 'a'.toNat = 97 := rfl
    have ef : 'f'.toNat = 102 := rfl
    have eA : 'A'.toNat = 65 := rfl
    have eF : 'F'.toNat = 70 := rfl
    split at h
    · simp only [Option.some.injEq] at h
      have : c.toNat = '0'.toNat := by omega
      exact Char.toNat_inj.1 this
    · split at h
      · simp only [Option.some.injEq] at h; omega
      · split at h
        · simp only [Option.some.injEq] at h; omega
        · cases h
  · rintro rfl; rfl

/-- Interpretation of a string of hex digits as a nibble sequence. -/
def parseDigits (s : List Char) : Option Key :=
  s.mapM fun c => (hexVal c).map (Fin.ofNat 16)

theorem mapM_hexVal (s : List Char) :
    s.mapM hexVal = (parseDigits s).map (fun l => l.map Fin.val) := by
  induction s with
  | nil => rfl
  | cons c s ih =>
    unfold parseDigits at ih ⊢
    rw [List.mapM_cons, List.mapM_cons, ih]
    cases h : hexVal c with
    | none => rfl
    | some v =>
      have := hexVal_lt h
      cases h2 : List.mapM (fun c => Option.map (Fin.ofNat 16) (hexVal c)) s with
      | none => rfl
      | some l => simp [Fin.ofNat, Nat.mod_eq_of_lt this]

theorem parseDigits_cons (c : Char) (s : List Char) (l : Key) :
    parseDigits (c :: s) = some l ↔
      ∃ v r, hexVal c = some v ∧ parseDigits s = some r ∧ l = Fin.ofNat 16 v :: r := by
  unfold parseDigits
  rw [List.mapM_cons]
  cases hexVal c with
  | none => simp
  | some v =>
    cases List.mapM (fun c => Option.map (Fin.ofNat 16) (hexVal c)) s with
    | none => simp
    | some r => simp [eq_comm]

theorem parseDigits_length {s : List Char} {l : Key} (h : parseDigits s = some l) :
    l.length = s.length := by
  induction s generalizing l with
  | nil => simp [parseDigits] at h; subst h; rfl
  | cons c s ih =>
    obtain ⟨v, r, _, hr, rfl⟩ := (parseDigits_cons c s l).1 h
    simp [ih hr]

theorem value_map_val (l : Key) : (l.map Fin.val).foldl (fun a d => a * 16 + d) 0 = value l := by
  rw [List.foldl_map]; rfl

theorem leadingZeros_eq {s : List Char} {l : Key} (h : parseDigits s = some l) :
    (s.findIdx? (· != '0')).getD s.length + (bitLen (value l) + 3) / 4 = l.length := by
  induction s generalizing l with
  | nil => simp [parseDigits] at h; subst h; rfl
  | cons c s ih =>
    obtain ⟨v, r, hv, hr, rfl⟩ := (parseDigits_cons c s l).1 h
    by_cases hc : c = '0'
    · subst hc
      have : v = 0 := by
        have := hexVal_zero.2 rfl
        rw [this] at hv; exact (Option.some.inj hv).symm
      subst this
      have := ih hr
      have e : value (Fin.ofNat 16 0 :: r) = value r := by rw [value_cons]; simp
      rw [e]
      simp only [List.findIdx?_cons, bne_self_eq_false, Bool.false_eq_true, if_false,
        List.length_cons]
      cases hf : List.findIdx? (fun x => x != '0') s with
      | none => rw [hf] at this; simp at this ⊢; omega
      | some i => rw [hf] at this; simp at this ⊢; omega
    · have hvne : v ≠ 0 := by
        intro e; subst e; exact hc (hexVal_zero.1 hv)
      have hlt := hexVal_lt hv
      rw [nibLen_value]
      · simp [List.findIdx?_cons, hc]
      · simp only [NoLeadingZero, List.head?_cons, ne_eq, Option.some.injEq]
        intro e
        have := congrArg Fin.val e
        simp at this
        omega

theorem fromStr_ok {s : List Char} {l : Key} (h : parseDigits (strip0x s) = some l)
    (hl : l.length ≤ 128) : fromStr s = .ok (ofList l) := by
  unfold fromStr u512FromStr
  have hlen := parseDigits_length h
  have h1 : ¬ (strip0x s).length > 128 := by omega
  simp only [h1, if_false, mapM_hexVal, h, Option.map_some, value_map_val]
  congr 1
  have hvl := value_lt_512 hl
  have hp : (BitVec.ofNat 512 (value l)).toNat = value l := by
    rw [BitVec.toNat_ofNat, Nat.mod_eq_of_lt hvl]
  apply eq_ofList hl
  · simp only [getNumNibblesInKey, hp]
    exact leadingZeros_eq h
  · exact hp

theorem fromStr_err {s : List Char}
    (h : parseDigits (strip0x s) = none ∨ (strip0x s).length > 128) :
    fromStr s = .error .fromHex := by
  unfold fromStr u512FromStr
  by_cases h1 : (strip0x s).length > 128
  · simp [h1]
  · have h2 : parseDigits (strip0x s) = none := by
      rcases h with h | h
      · exact h
      · exact absurd h h1
    simp [h1, mapM_hexVal, h2]

theorem parseDigits_map (upper : Bool) (l : Key) : parseDigits (l.map (hexChar upper)) = some l := by
  induction l with
  | nil => rfl
  | cons d l ih =>
    rw [List.map_cons, parseDigits_cons]
    refine ⟨d.val, l, hexVal_hexChar upper d, ih, ?_⟩
    congr 1
    ext; simp

/-! ## hex-prefix decoding -/

/-- The sequence of nibbles `from_hex_prefix_encoding` actually returns. -/
def hpDecode (b0 : UInt8) (rest : Bytes) : Key :=
  let f := b0.toNat / 16
  (if f % 2 = 1 then [Fin.ofNat 16 b0.toNat] else []) ++ nibblesOfBytes rest
    ++ (if f / 2 = 1 then [1, 0] else [])

theorem nibblesOfBytes_append (a b : Bytes) :
    nibblesOfBytes (a ++ b) = nibblesOfBytes a ++ nibblesOfBytes b := by
  simp [nibblesOfBytes]

theorem bytesVal_low (b : UInt8) (rest : Bytes) :
    bytesVal ((b &&& 0b1111) :: rest)
      = value (Fin.ofNat 16 b.toNat :: nibblesOfBytes rest) := by
  rw [bytesVal_cons, value_cons, value_nibblesOfBytes, nibblesOfBytes_length, Nat.pow_mul]
  have : (b &&& 0b1111).toNat = b.toNat % 16 := by
    rw [UInt8.toNat_and]
    exact Nat.and_two_pow_sub_one_eq_mod b.toNat 4
  rw [this]
  rfl

theorem flagBits_eq (b : UInt8) : (b.toNat &&& 0b11110000) >>> 4 = b.toNat / 16 := by
  have hlt := b.toNat_lt
  rw [Nat.shiftRight_eq_div_pow]
  have key : ∀ b, b < 256 → (b &&& 0b11110000) / 2 ^ 4 = b / 16 := by
    set_option maxRecDepth 10000 in decide
  exact key _ hlt

theorem fromHexPrefix_ok {b0 : UInt8} {rest : Bytes} (hlen : rest.length ≤ 32)
    (hf : b0.toNat / 16 < 4) :
    fromHexPrefixEncoding (b0 :: rest) = .ok (.ok (ofList (hpDecode b0 rest))) := by
  unfold fromHexPrefixEncoding
  have h1 : ¬ (b0 :: rest).length > 33 := by simp only [List.length_cons]; omega
  rw [if_neg h1]
  simp only [rindex, List.getElem?_cons_zero, R_bind_ok, flagBits_eq,
    List.drop_succ_cons, List.drop_zero, List.take_of_length_le hlen]
  -- a common closing step
  have close : ∀ (c : Nat) (written : Bytes) (k : Key), c = k.length → k.length ≤ 128 →
      (c + 1) / 2 = written.length → bytesVal written = value k → written.length ≤ 64 →
      (⟨c, U512.fromBE ((written ++ List.replicate (64 - written.length) 0).take ((c + 1) / 2))⟩
        : Nibbles) = ofList k := by
    intro c written k e1 e2 e3 e4 e5
    rw [e3, List.take_left']
    · exact eq_ofList e2 e1 (by rw [← e4]; exact fromBE_toNat e5)
    · rfl
  generalize hb : b0.toNat / 16 = f at hf
  have hcases : f = 0 ∨ f = 1 ∨ f = 2 ∨ f = 3 := by omega
  rcases hcases with rfl | rfl | rfl | rfl
  · simp only [R_pure]
    congr 2
    have e : ((((b0 :: rest).length * 2 : Int)) + -2).toNat = 2 * rest.length := by
      simp only [List.length_cons]; omega
    rw [e]
    have ho : ((2 * rest.length) &&& 1 == 1) = false := by
      rw [Nat.and_one_is_mod, Nat.mul_mod_right]; rfl
    simp only [ho, Bool.false_eq_true, if_false, List.nil_append, List.append_nil]
    apply close
    · simp [hpDecode, hb]
    · simp [hpDecode, hb]; omega
    · omega
    · simp [hpDecode, hb, value_nibblesOfBytes]
    · omega
  · simp only [R_pure]
    congr 2
    have e : ((((b0 :: rest).length * 2 : Int)) + -1).toNat = 2 * rest.length + 1 := by
      simp only [List.length_cons]; omega
    rw [e]
    have ho : ((2 * rest.length + 1) &&& 1 == 1) = true := by
      rw [Nat.and_one_is_mod, Nat.mul_add_mod]; rfl
    simp only [ho, if_true, Bool.false_eq_true, if_false, List.append_nil]
    apply close
    · simp [hpDecode, hb]
    · simp [hpDecode, hb]; omega
    · simp; omega
    · rw [List.singleton_append, bytesVal_low]; simp [hpDecode, hb]
    · simp; omega
  · simp only [R_pure]
    congr 2
    have e : ((((b0 :: rest).length * 2 : Int)) + 0).toNat = 2 * (rest.length + 1) := by
      simp only [List.length_cons]; omega
    rw [e]
    have ho : ((2 * (rest.length + 1)) &&& 1 == 1) = false := by
      rw [Nat.and_one_is_mod, Nat.mul_mod_right]; rfl
    simp only [ho, Bool.false_eq_true, if_false, if_true, List.nil_append]
    have h16 : nibblesOfBytes [16] = [1, 0] := by decide
    apply close
    · simp [hpDecode, hb]; omega
    · simp [hpDecode, hb]; omega
    · simp; omega
    · simp [hpDecode, hb]
      rw [← value_nibblesOfBytes, nibblesOfBytes_append, h16]
    · simp; omega
  · simp only [R_pure]
    congr 2
    have e : ((((b0 :: rest).length * 2 : Int)) + 1).toNat = 2 * (rest.length + 1) + 1 := by
      simp only [List.length_cons]; omega
    rw [e]
    have ho : ((2 * (rest.length + 1) + 1) &&& 1 == 1) = true := by
      rw [Nat.and_one_is_mod, Nat.mul_add_mod]; rfl
    simp only [ho, if_true]
    have h16 : nibblesOfBytes [16] = [1, 0] := by decide
    apply close
    · simp [hpDecode, hb]; omega
    · simp [hpDecode, hb]; omega
    · simp; omega
    · rw [List.append_assoc, List.singleton_append, bytesVal_low, nibblesOfBytes_append, h16]
      simp [hpDecode, hb]
    · simp; omega

theorem fromHexPrefix_invalid {b0 : UInt8} {rest : Bytes} (hlen : rest.length ≤ 32)
    (hf : 4 ≤ b0.toNat / 16) :
    fromHexPrefixEncoding (b0 :: rest) = .ok (.error (.invalidFlags (b0.toNat / 16))) := by
  unfold fromHexPrefixEncoding
  have h1 : ¬ (b0 :: rest).length > 33 := by simp only [List.length_cons]; omega
  rw [if_neg h1]
  simp only [rindex, List.getElem?_cons_zero, R_bind_ok, flagBits_eq]
  generalize b0.toNat / 16 = f at hf
  match f, hf with
  | f + 4, _ => rfl

theorem fromHexPrefix_tooLong {bs : Bytes} (h : bs.length > 33) :
    fromHexPrefixEncoding bs = .ok (.error (.tooLong (hexEncode false bs) bs.length)) := by
  unfold fromHexPrefixEncoding
  rw [if_pos h]; rfl

theorem fromHexPrefix_nil : fromHexPrefixEncoding [] = .error .indexOutOfBounds := rfl

theorem HP_shape (l : Key) (t : Bool) : ∃ b0 rest, HP l t = b0 :: rest ∧
    rest.length = l.length / 2 ∧ b0.toNat / 16 < 4 ∧
    hpDecode b0 rest = if t then l ++ [1, 0] else l := by
  unfold HP
  by_cases h : l.length % 2 = 0
  · simp only [h, if_true]
    refine ⟨_, _, rfl, pairs_length l, ?_, ?_⟩
    · cases t <;> decide
    · unfold hpDecode
      rw [nibblesOfBytes_pairs l h]
      cases t <;> simp
  · cases l with
    | nil => simp at h
    | cons x r =>
      simp only [h, if_false]
      refine ⟨_, _, rfl, ?_, ?_, ?_⟩
      · rw [pairs_length]; simp only [List.length_cons] at h ⊢; omega
      · clear h; revert x; cases t <;> decide
      · have hx := x.isLt
        unfold hpDecode
        rw [nibblesOfBytes_pairs r (by simp only [List.length_cons] at h; omega)]
        clear h
        have e1 : (UInt8.ofNat (16 * ((if t = true then 2 else 0) + 1) + x.val)).toNat
            = 16 * ((if t = true then 2 else 0) + 1) + x.val := by
          simp only [UInt8.toNat_ofNat']
          cases t <;> simp <;> omega
        rw [e1]
        cases t with
        | false =>
          have e2 : (16 * ((if false = true then 2 else 0) + 1) + x.val) / 16 = 1 := by simp
          have e3 : Fin.ofNat 16 (16 * ((if false = true then 2 else 0) + 1) + x.val) = x := by
            ext; simp
          rw [e2, e3]; simp
        | true =>
          have e2 : (16 * ((if true = true then 2 else 0) + 1) + x.val) / 16 = 3 := by simp; omega
          have e3 : Fin.ofNat 16 (16 * ((if true = true then 2 else 0) + 1) + x.val) = x := by
            ext; simp; omega
          rw [e2, e3]; rfl

theorem fromHexPrefix_HP {l : Key} (hl : l.length ≤ 65) (t : Bool) :
    fromHexPrefixEncoding (HP l t)
      = .ok (.ok (ofList (if t then l ++ [1, 0] else l))) := by
  obtain ⟨b0, rest, e, h1, h2, h3⟩ := HP_shape l t
  rw [e, fromHexPrefix_ok (by omega) h2, h3]

theorem HP_inj {a b : Key} {s t : Bool} (h : HP a s = HP b t) : a = b ∧ s = t := by
  have flag : ∀ (l : Key) (t : Bool), ∃ b0 rest, HP l t = b0 :: rest ∧
      b0.toNat / 32 = (if t then 1 else 0) := by
    intro l t
    unfold HP
    by_cases h : l.length % 2 = 0
    · simp only [h, if_true]
      exact ⟨_, _, rfl, by cases t <;> decide⟩
    · cases l with
      | nil => simp at h
      | cons x r =>
        simp only [h, if_false]
        refine ⟨_, _, rfl, ?_⟩
        clear h; revert x; cases t <;> decide
  have hst : s = t := by
    obtain ⟨b0, r0, e0, f0⟩ := flag a s
    obtain ⟨b1, r1, e1, f1⟩ := flag b t
    rw [e0, e1] at h
    have : b0 = b1 := (List.cons.inj h).1
    rw [this, f1] at f0
    cases s <;> cases t <;> simp at f0 ⊢
  subst hst
  obtain ⟨b0, r0, e0, _, _, d0⟩ := HP_shape a s
  obtain ⟨b1, r1, e1, _, _, d1⟩ := HP_shape b s
  rw [e0, e1] at h
  obtain ⟨h1, h2⟩ := List.cons.inj h
  rw [h1, h2, d1] at d0
  refine ⟨?_, rfl⟩
  cases s
  · simpa using d0.symm
  · simpa using d0.symm

end Nibbles
end EthTrie
