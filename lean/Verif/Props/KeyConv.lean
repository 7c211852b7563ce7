import Verif.Props.Keys

/-!
# Properties C07 – C11: conversions of keys

Specifications: `Spec.nibblesOfBytes`, `Spec.bytesOfNibbles`, `Spec.value`, `Spec.HP`
(`Verif/Spec`), and for strings one character per nibble.
-/

namespace EthTrie
open Spec Nibbles

set_option exponentiation.threshold 600

/-! ## C07 -/

/-- C07: `from_bytes_be` succeeds exactly for 1 to 33 bytes and yields the two nibbles of each
byte. -/
theorem C07_from_bytes_be (bs : Bytes) :
    (bs = [] → fromBytesBE bs = .error .zeroSizedKey) ∧
    (33 < bs.length → fromBytesBE bs = .error (.tooManyBytes bs.length)) ∧
    (bs ≠ [] → bs.length ≤ 33 →
      ∃ n, fromBytesBE bs = .ok n ∧ n.WF ∧ n.toList = nibblesOfBytes bs) := by
  refine ⟨?_, ?_, ?_⟩
  · rintro rfl; rfl
  · intro h
    have h0 : bs ≠ [] := by rintro rfl; simp at h
    have h0 : bs.isEmpty = false := by simpa using h0
    simp [fromBytesBE, fromBytes, h0, h]
  · intro h1 h2
    exact ⟨_, fromBytesBE_ok h1 h2, ofList_WF _, toList_ofList (by simp; omega)⟩

/-- C07: `bytes_be` of a key built from bytes gives the bytes back. -/
theorem C07_bytes_round_trip (P : Profile) (bs : Bytes) (n : Nibbles)
    (h : fromBytesBE bs = .ok n) : n.bytesBE P = .ok bs := by
  by_cases h1 : bs = []
  · rw [(C07_from_bytes_be bs).1 h1] at h; cases h
  · by_cases h2 : bs.length ≤ 33
    · rw [fromBytesBE_ok h1 h2] at h
      have := Except.ok.inj h
      subst this
      rw [bytesBE_ok P (by simp; omega)]
      have : (nibblesOfBytes bs).length % 2 = 0 := by simp
      simp only [bytesOfNibbles, this, if_true, pairs_nibblesOfBytes]
    · rw [(C07_from_bytes_be bs).2.1 (by omega)] at h; cases h

/-- C07: the little-endian constructor is the big-endian one on the reversed bytes. -/
theorem C07_from_bytes_le (bs : Bytes) : fromBytesLE bs = fromBytesBE bs.reverse := by
  simp only [fromBytesLE, fromBytesBE, fromBytes, fromLE_eq, List.isEmpty_reverse,
    List.length_reverse]

/-- C07: 32-byte hashes as keys. -/
theorem C07_h256 (h : H256) :
    (fromH256BE h).WF ∧ (fromH256BE h).count = 64 ∧
    (fromH256BE h).toList = nibblesOfBytes h.toList ∧
    (fromH256LE h).WF ∧ (fromH256LE h).count = 64 ∧
    (fromH256LE h).toList = nibblesOfBytes h.toList.reverse := by
  rw [fromH256BE_eq, fromH256LE_eq]
  refine ⟨ofList_WF _, by simp, toList_ofList (by simp), ofList_WF _, by simp,
    toList_ofList (by simp)⟩

/-- C07: `bytes_be` packs the nibbles of any key into bytes, a key of odd length with a leading
zero nibble. -/
theorem C07_bytes_be (P : Profile) (n : Nibbles) (hn : n.Fits) :
    n.bytesBE P = .ok (bytesOfNibbles n.toList) := by
  obtain ⟨l, hl, rfl⟩ := wf_cases hn.1 hn.2
  rw [toList_ofList hl]
  exact bytesBE_ok P hl

example : fromBytesBE [0x01, 0xa5] = .ok ⟨4, 0x01a5#512⟩ := by decide +kernel
example : fromBytesLE [0x01, 0xa5] = .ok ⟨4, 0xa501#512⟩ := by decide +kernel
example : exKey.bytesBE .debug = .ok [0x00, 0xa5] := by decide +kernel

/-! ## C08 -/

/-- C08: an integer of any width up to 512 bits becomes its base-16 digits, without leading
zeros. -/
theorem C08_of_uint (w : Nat) (hw : w ≤ 512) (x : BitVec w) :
    (ofUInt w x).WF ∧ value (ofUInt w x).toList = x.toNat ∧
      (ofUInt w x).toList.head? ≠ some 0 := by
  obtain ⟨l, hl, h1, h2, e⟩ := ofUInt_ok hw x
  rw [e, toList_ofList hl]
  exact ⟨ofList_WF _, h2, h1⟩

/-- C08: zero becomes the empty key. -/
theorem C08_of_zero (w : Nat) (hw : w ≤ 512) : (ofUInt w 0#w).toList = [] := by
  obtain ⟨_, h1, h2⟩ := C08_of_uint w hw 0#w
  cases hl : (ofUInt w 0#w).toList with
  | nil => rfl
  | cons d r =>
    rw [hl] at h1 h2
    rw [value_cons] at h1
    simp only [BitVec.toNat_ofNat, Nat.zero_mod] at h1
    have hp : 0 < 16 ^ r.length := Nat.pow_pos (by decide)
    have hd : d.val = 0 := by
      rcases Nat.eq_zero_or_pos d.val with h | h
      · exact h
      · have := Nat.mul_pos h hp
        omega
    exact absurd (by simp [Fin.ext_iff, hd] : (d :: r).head? = some 0) h2

/-- C08: byte padding adds at most one leading zero nibble and makes the length even. -/
theorem C08_byte_padded (n : Nibbles) (hn : n.Fits) :
    n.bytePadded.toList = (if n.toList.length % 2 = 0 then n.toList else 0 :: n.toList) ∧
      n.bytePadded.toList.length % 2 = 0 := by
  obtain ⟨l, hl, rfl⟩ := wf_cases hn.1 hn.2
  rw [bytePadded_ok hl, toList_ofList hl]
  by_cases h : l.length % 2 = 0
  · simp only [h, if_true]
    rw [toList_ofList hl]
    exact ⟨rfl, h⟩
  · simp only [h, if_false]
    rw [toList_ofList (by simp only [List.length_cons]; omega)]
    exact ⟨rfl, by simp only [List.length_cons]; omega⟩

example : ofUInt 64 0x0a71#64 = ⟨3, 0xa71#512⟩ := by decide +kernel
example : (ofUInt 64 0x0a71#64).bytePadded = ⟨4, 0xa71#512⟩ := by decide +kernel

/-! ## C09 -/

/-- The lower-case (upper-case) hexadecimal digits. -/
def hexAlphabet (upper : Bool) : List Char :=
  if upper then ['0','1','2','3','4','5','6','7','8','9','A','B','C','D','E','F']
  else ['0','1','2','3','4','5','6','7','8','9','a','b','c','d','e','f']

theorem hexChar_alphabet : ∀ (upper : Bool) (d : Fin 16),
    (hexAlphabet upper)[d.val]? = some (hexChar upper d) := by decide

/-- The nibble denoted by a character, by table lookup. -/
def nibbleOfChar (c : Char) : Option (Fin 16) :=
  ((List.finRange 16).find? fun d =>
    (hexAlphabet false)[d.val]? == some c || (hexAlphabet true)[d.val]? == some c)

theorem nibbleOfChar_eq (c : Char) : nibbleOfChar c = (hexVal c).map (Fin.ofNat 16) := by
  cases h : hexVal c with
  | some v =>
    have hmem : c ∈ hexAlphabet false ∨ c ∈ hexAlphabet true := by
      have key : ∀ (a b : Char), a ≤ b ↔ a.toNat ≤ b.toNat := fun a b => Iff.rfl
      have inj : ∀ (a : Char), c.toNat = a.toNat → c = a := fun a h => Char.toNat_inj.1 h
      unfold hexVal at h
      simp only [key] at h
      have e0 : '0'.toNat = 48 := rfl
      have e9 : '9'.toNat = 57 := rfl
      have ea : 'a'.toNat = 97 := rfl
      have ef : 'f'.toNat = 102 := rfl
      have eA : 'A'.toNat = 65 := rfl
      have eF : 'F'.toNat = 70 := rfl
      have pick : ∀ (a : Char), c.toNat = a.toNat →
          (a ∈ hexAlphabet false ∨ a ∈ hexAlphabet true) →
          (c ∈ hexAlphabet false ∨ c ∈ hexAlphabet true) := by
        intro a h1 h2; rw [inj a h1]; exact h2
      split at h
      next hc =>
        have : c.toNat = 48 ∨ c.toNat = 49 ∨ c.toNat = 50 ∨ c.toNat = 51 ∨ c.toNat = 52 ∨
          c.toNat = 53 ∨ c.toNat = 54 ∨ c.toNat = 55 ∨ c.toNat = 56 ∨ c.toNat = 57 := by omega
        rcases this with t | t | t | t | t | t | t | t | t | t
        · exact pick '0' t (by decide)
        · exact pick '1' t (by decide)
        · exact pick '2' t (by decide)
        · exact pick '3' t (by decide)
        · exact pick '4' t (by decide)
        · exact pick '5' t (by decide)
        · exact pick '6' t (by decide)
        · exact pick '7' t (by decide)
        · exact pick '8' t (by decide)
        · exact pick '9' t (by decide)
      next =>
        split at h
        next hc =>
          have : c.toNat = 97 ∨ c.toNat = 98 ∨ c.toNat = 99 ∨ c.toNat = 100 ∨ c.toNat = 101 ∨
            c.toNat = 102 := by omega
          rcases this with t | t | t | t | t | t
          · exact pick 'a' t (by decide)
          · exact pick 'b' t (by decide)
          · exact pick 'c' t (by decide)
          · exact pick 'd' t (by decide)
          · exact pick 'e' t (by decide)
          · exact pick 'f' t (by decide)
        next =>
          split at h
          next hc =>
            have : c.toNat = 65 ∨ c.toNat = 66 ∨ c.toNat = 67 ∨ c.toNat = 68 ∨ c.toNat = 69 ∨
              c.toNat = 70 := by omega
            rcases this with t | t | t | t | t | t
            · exact pick 'A' t (by decide)
            · exact pick 'B' t (by decide)
            · exact pick 'C' t (by decide)
            · exact pick 'D' t (by decide)
            · exact pick 'E' t (by decide)
            · exact pick 'F' t (by decide)
          next => cases h
    have all : ∀ upper, ∀ c ∈ hexAlphabet upper,
        nibbleOfChar c = (hexVal c).map (Fin.ofNat 16) := by decide +kernel
    rw [← h]
    rcases hmem with hm | hm
    · exact all _ _ hm
    · exact all _ _ hm
  | none =>
    unfold nibbleOfChar
    rw [Option.map_none, List.find?_eq_none]
    intro d _ hd
    simp only [hexChar_alphabet, Bool.or_eq_true, beq_iff_eq, Option.some.injEq] at hd
    rcases hd with hd | hd
    · rw [← hd, hexVal_hexChar] at h; cases h
    · rw [← hd, hexVal_hexChar] at h; cases h

/-- The nibble sequence denoted by a string of hex digits. -/
def keyOfDigits (s : List Char) : Option Key := s.mapM nibbleOfChar

theorem keyOfDigits_eq (s : List Char) : keyOfDigits s = parseDigits s := by
  unfold keyOfDigits parseDigits
  congr 1
  funext c
  exact nibbleOfChar_eq c

/-- C09: formatting gives `0x` and exactly one digit per nibble. -/
theorem C09_format (P : Profile) (n : Nibbles) (hn : n.Fits) (upper : Bool) :
    ∃ ds, n.asHexStr P upper = .ok ('0' :: 'x' :: ds) ∧
      ds.map some = n.toList.map fun d => (hexAlphabet upper)[d.val]? := by
  obtain ⟨l, hl, rfl⟩ := wf_cases hn.1 hn.2
  rw [toList_ofList hl]
  refine ⟨l.map (hexChar upper), asHexStr_ok P hl upper, ?_⟩
  rw [List.map_map]
  apply List.map_congr_left
  intro d _
  simp [hexChar_alphabet]

/-- The digits of a string after an optional `0x`. -/
def digitsPart (s : List Char) : List Char :=
  if ['0', 'x'] <+: s then s.drop 2 else s

theorem digitsPart_eq (s : List Char) : digitsPart s = strip0x s := by
  unfold digitsPart
  match s with
  | '0' :: 'x' :: r => simp [strip0x]
  | [] => rfl
  | [c] =>
    have h : ¬ ['0', 'x'] <+: [c] := fun h => by have := h.length_le; simp at this
    rw [if_neg h]
    unfold strip0x
    split <;> simp_all
  | a :: b :: r =>
    by_cases h : a = '0' ∧ b = 'x'
    · obtain ⟨rfl, rfl⟩ := h
      simp [strip0x]
    · have h' : ¬ ['0', 'x'] <+: a :: b :: r := by
        simpa [List.cons_prefix_cons, eq_comm] using h
      rw [if_neg h']
      unfold strip0x
      split
      next _ _ heq =>
        simp only [List.cons.injEq] at heq
        exact absurd ⟨heq.1, heq.2.1⟩ h
      next => rfl

/-- C09: parsing yields one nibble per digit, including leading zeros, and fails exactly when the
part after an optional `0x` has a non-hex character or more than 128 digits. -/
theorem C09_parse (s : List Char) :
    (∀ l, keyOfDigits (digitsPart s) = some l → (digitsPart s).length ≤ 128 →
      ∃ n, fromStr s = .ok n ∧ n.WF ∧ n.toList = l ∧ n.toList.length = (digitsPart s).length) ∧
    (keyOfDigits (digitsPart s) = none ∨ 128 < (digitsPart s).length →
      fromStr s = .error .fromHex) := by
  rw [keyOfDigits_eq, digitsPart_eq]
  constructor
  · intro l h hl
    have hlen := parseDigits_length h
    have e : (ofList l).toList = l := toList_ofList (by omega)
    exact ⟨ofList l, fromStr_ok h (by omega), ofList_WF _, e, by rw [e, hlen]⟩
  · exact fun h => fromStr_err h

/-- C09: parsing the formatted key gives the key back. -/
theorem C09_round_trip (P : Profile) (n : Nibbles) (hn : n.Fits) (upper : Bool) :
    ∃ s, n.asHexStr P upper = .ok s ∧ fromStr s = .ok n := by
  obtain ⟨l, hl, rfl⟩ := wf_cases hn.1 hn.2
  refine ⟨_, asHexStr_ok P hl upper, ?_⟩
  apply fromStr_ok _ hl
  exact parseDigits_map upper l

example : exKey.asHexStr .debug false = .ok "0x0a5".toList := by decide +kernel
example : fromStr "0x0A5".toList = .ok exKey := by decide +kernel
example : fromStr "0xzz".toList = .error .fromHex := by decide +kernel

/-! ## C10 -/

/-- C10: hex-prefix encoding is the yellow paper's. -/
theorem C10_hex_prefix (P : Profile) (n : Nibbles) (hn : n.Fits) (isLeaf : Bool) :
    n.toHexPrefixEncoding P isLeaf = .ok (HP n.toList isLeaf) := by
  obtain ⟨l, hl, rfl⟩ := wf_cases hn.1 hn.2
  rw [toList_ofList hl]
  exact toHexPrefix_ok P hl isLeaf

/-- C10: the encoding determines key and flag. -/
theorem C10_injective (P : Profile) (a b : Nibbles) (ha : a.Fits) (hb : b.Fits) (s t : Bool)
    (h : a.toHexPrefixEncoding P s = b.toHexPrefixEncoding P t) : a = b ∧ s = t := by
  rw [C10_hex_prefix P a ha, C10_hex_prefix P b hb] at h
  obtain ⟨h1, h2⟩ := HP_inj (Except.ok.inj h)
  exact ⟨toList_WF_inj ha.1 hb.1 h1, h2⟩

example : exKey.toHexPrefixEncoding .debug true = .ok [0x30, 0xa5] := by decide +kernel
example : HP exKey.toList true = [0x30, 0xa5] := by decide +kernel

/-! ## C11 -/

/-- C11 for extensions: decoding inverts encoding for every key whose encoding fits 33 bytes.
Missing with respect to C11: the leaf flag, where it is false (`C11_false_leaf`). -/
theorem C11_decode_encode_partial (P : Profile) (n : Nibbles) (hn : n.WF) (hc : n.count ≤ 65) :
    ∃ bs, n.toHexPrefixEncoding P false = .ok bs ∧ fromHexPrefixEncoding bs = .ok (.ok n) := by
  obtain ⟨l, hl, rfl⟩ := wf_cases hn (by omega)
  exact ⟨_, toHexPrefix_ok P hl false, fromHexPrefix_HP hc false⟩

/-- What decoding a leaf encoding really returns: the key with the nibbles `1, 0` appended. -/
theorem C11_decode_encode_leaf (P : Profile) (n : Nibbles) (hn : n.WF) (hc : n.count ≤ 65) :
    ∃ bs m, n.toHexPrefixEncoding P true = .ok bs ∧ fromHexPrefixEncoding bs = .ok (.ok m) ∧
      m.WF ∧ m.toList = n.toList ++ [1, 0] := by
  obtain ⟨l, hl, rfl⟩ := wf_cases hn (by omega)
  rw [toList_ofList hl]
  refine ⟨_, _, toHexPrefix_ok P hl true, fromHexPrefix_HP hc true, ofList_WF _, ?_⟩
  simp only [if_true]
  rw [toList_ofList (by simp; simp at hc; omega)]

/-- C11 is false for leaves: no key at all survives the round trip. -/
theorem C11_false_leaf (P : Profile) (n : Nibbles) (hn : n.WF) (hc : n.count ≤ 65) :
    ∃ bs, n.toHexPrefixEncoding P true = .ok bs ∧ fromHexPrefixEncoding bs ≠ .ok (.ok n) := by
  obtain ⟨bs, m, h1, h2, -, h3⟩ := C11_decode_encode_leaf P n hn hc
  refine ⟨bs, h1, ?_⟩
  rw [h2]
  intro e
  have := Except.ok.inj (Except.ok.inj e)
  subst this
  have := congrArg List.length h3
  simp at this

/-- C11 (errors): for non-empty input, decoding reports an error exactly for more than 33 bytes or
a flag nibble above 3.  Missing with respect to C11: the empty input, which panics
(`C11_false_empty`). -/
theorem C11_errors_partial (b : UInt8) (rest : Bytes) :
    ((∃ e, fromHexPrefixEncoding (b :: rest) = .ok (.error e)) ↔
      33 < (b :: rest).length ∨ 3 < b.toNat / 16) ∧
    (¬ (33 < (b :: rest).length ∨ 3 < b.toNat / 16) →
      ∃ n, fromHexPrefixEncoding (b :: rest) = .ok (.ok n)) := by
  by_cases h1 : rest.length ≤ 32
  · have hl : ¬ 33 < (b :: rest).length := by simp only [List.length_cons]; omega
    by_cases h2 : b.toNat / 16 < 4
    · rw [fromHexPrefix_ok h1 h2]
      have h3 : ¬ 3 < b.toNat / 16 := by omega
      constructor
      · simp [h1, h3]
      · intro _; exact ⟨_, rfl⟩
    · rw [fromHexPrefix_invalid h1 (by omega)]
      have h3 : 3 < b.toNat / 16 := by omega
      simp [h3]
  · have hl : 33 < (b :: rest).length := by simp only [List.length_cons]; omega
    rw [fromHexPrefix_tooLong hl]
    simp only [hl, true_or, not_true_eq_false, false_imp_iff, and_true, iff_true]
    exact ⟨_, rfl⟩

/-- C11 is false on the empty input: instead of an error, decoding panics. -/
theorem C11_false_empty : fromHexPrefixEncoding [] = .error .indexOutOfBounds := rfl

example : fromHexPrefixEncoding [0x10, 0xa5] = .ok (.ok exKey) := by decide +kernel
example : fromHexPrefixEncoding [0x30, 0xa5] = .ok (.ok ⟨5, 0x0a510#512⟩) := by decide +kernel
example : fromHexPrefixEncoding [0x40, 0xa5] = .ok (.error (.invalidFlags 4)) := by decide +kernel

end EthTrie
