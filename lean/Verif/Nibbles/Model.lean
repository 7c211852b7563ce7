import Verif.Rust

/-!
# Model of `src/nibbles.rs` (and `create_mask_of_1s`, `is_even` of `src/utils.rs`)

The `uint` crate is not part of the repository; the operations used from it are the first few
definitions below.  `U512` is `BitVec 512`; `usize` is `Nat` with the arithmetic of `Verif.Rust`; strings are lists of
characters.  Functions that can panic return `R _`.
-/

namespace EthTrie

/-- `uint::U512` / `NibblesIntern` (`src/nibbles.rs:22`). `<<<`, `>>>`, `&&&`, `|||`, `~~~` of
`BitVec 512` are the crate's operators: bits shifted out are dropped, shifts by 512 or more give 0. -/
abbrev U512 := BitVec 512

/-- `Nibble = u8` (`src/nibbles.rs:21`), a number below 256. -/
abbrev Nibble := Nat

/-- `U512::byte(i)`: the `i`-th least significant byte; out-of-range indices panic (`src/nibbles.rs:264`). -/
def U512.byte (x : U512) (i : Nat) : R Nat :=
  if i < 64 then .ok ((x.toNat / 256 ^ i) % 256) else .error .indexOutOfBounds

/-- `U512::to_big_endian` into a 64-byte buffer (`src/nibbles.rs:604, 644, 728`). -/
def U512.toBE (x : U512) : Bytes :=
  (List.range 64).map fun i => UInt8.ofNat (x.toNat / 256 ^ (63 - i) % 256)

/-- `U512::from_big_endian` (`src/nibbles.rs:214, 701, 735`). -/
def U512.fromBE (bs : Bytes) : U512 :=
  BitVec.ofNat 512 (bs.foldl (fun a b => a * 256 + b.toNat) 0)

/-- `U512::from_little_endian` (`src/nibbles.rs:222, 740`). -/
def U512.fromLE (bs : Bytes) : U512 :=
  BitVec.ofNat 512 (bs.foldr (fun b a => a * 256 + b.toNat) 0)

/-- Number of significant bits of a number (`U512::bits` in `src/nibbles.rs:721`). -/
def bitLen (n : Nat) : Nat := if n = 0 then 0 else Nat.log2 n + 1

/-- `create_mask_of_1s` (`src/utils.rs:54-56`): `(1 << amt) - 1`; `U512` subtraction panics on
underflow (in every profile), i.e. for `amt >= 512`. -/
def createMaskOf1s (amt : Nat) : R U512 :=
  let x : U512 := (1#512) <<< amt
  if x = 0#512 then .error .overflow else .ok (x - 1#512)

/-- `is_even` (`src/utils.rs:50-52`). -/
def isEven (n : Nat) : Bool := (n &&& 1) == 0

/-- `struct Nibbles` (`src/nibbles.rs:151-157`), with the derived equality. -/
structure Nibbles where
  count : Nat
  packed : U512
  deriving DecidableEq, Repr

namespace Nibbles

/-- `Nibbles::default()` (derived, `src/nibbles.rs:107`). -/
def default : Nibbles := ⟨0, 0#512⟩

/-- Derived `Ord` (`src/nibbles.rs:107`): lexicographic on the fields in declaration order. -/
def cmp (a b : Nibbles) : Ordering :=
  (compare a.count b.count).then (compare a.packed.toNat b.packed.toNat)

/-- `impl_to_nibbles!` (`src/nibbles.rs:81-105`) for an unsigned integer type of `w` bits
(`w <= 512`).  `leading_zeros` of `x` is `w - bitLen x`. -/
def ofUInt (w : Nat) (x : BitVec w) : Nibbles :=
  let leadingZeros := w - bitLen x.toNat
  ⟨(w - leadingZeros + 3) / 4, BitVec.ofNat 512 x.toNat⟩

/-- `ToNibbles::to_nibbles_byte_padded` (`src/nibbles.rs:37-45`), applied to the result of
`to_nibbles`. -/
def bytePadded (n : Nibbles) : Nibbles :=
  { n with count := ((n.count + 1) / 2) * 2 }

/-- `BytesToNibblesError` (`src/nibbles.rs:48-55`). -/
inductive BytesError where
  | zeroSizedKey
  | tooManyBytes (len : Nat)
  deriving DecidableEq, Repr

/-- `from_bytes` (`src/nibbles.rs:225-243`). -/
def fromBytes (bytes : Bytes) (conv : Bytes → U512) : Except BytesError Nibbles :=
  if bytes.isEmpty then .error .zeroSizedKey
  else if bytes.length > 33 then .error (.tooManyBytes bytes.length)
  else .ok ⟨bytes.length * 2, conv bytes⟩

/-- `from_bytes_be` (`src/nibbles.rs:213-215`). -/
def fromBytesBE (bytes : Bytes) : Except BytesError Nibbles := fromBytes bytes U512.fromBE

/-- `from_bytes_le` (`src/nibbles.rs:221-223`). -/
def fromBytesLE (bytes : Bytes) : Except BytesError Nibbles := fromBytes bytes U512.fromLE

/-- `from_nibble` (`src/nibbles.rs:249-256`). -/
def fromNibble (n : Nibble) : R Nibbles := do
  rassert (n ≤ 0xf)
  return ⟨1, BitVec.ofNat 512 n⟩

/-- `get_nibble` (`src/nibbles.rs:262-270`). -/
def getNibble (P : Profile) (self : Nibbles) (idx : Nat) : R Nibble := do
  let nibIdx ← usub P (← usub P self.count idx) 1
  let byte ← self.packed.byte (nibIdx / 2)
  match isEven nibIdx with
  | false => return (byte &&& 0b11110000) >>> 4
  | true => return byte &&& 0b00001111

/-- `get_min_truncate_amount_to_prevent_over_truncating` (`src/nibbles.rs:433-438`). -/
def minTruncate (self : Nibbles) (n : Nat) : Nat :=
  match decide (self.count ≥ n) with
  | false => self.count
  | true => n

/-- `truncate_n_nibbles_front_mut` / `truncate_n_nibbles_front`
(`src/nibbles.rs:387-392, 409-417`). -/
def truncateFront (P : Profile) (self : Nibbles) (n : Nat) : R Nibbles := do
  let n := self.minTruncate n
  let maskShift ← umul P (← usub P self.count n) 4
  let truncateMask := ~~~ ((← createMaskOf1s (← umul P n 4)) <<< maskShift)
  return ⟨← usub P self.count n, self.packed &&& truncateMask⟩

/-- `truncate_n_nibbles_back_mut` / `truncate_n_nibbles_back`
(`src/nibbles.rs:398-403, 423-431`). -/
def truncateBack (P : Profile) (self : Nibbles) (n : Nat) : R Nibbles := do
  let n := self.minTruncate n
  let shiftAmt ← umul P n 4
  let truncateMask := ~~~ (← createMaskOf1s (← umul P n 4))
  return ⟨← usub P self.count n, (self.packed &&& truncateMask) >>> shiftAmt⟩

/-- `pop_next_nibble_front` (`src/nibbles.rs:276-281`): popped nibble and new `self`. -/
def popNextFront (P : Profile) (self : Nibbles) : R (Nibble × Nibbles) := do
  let n ← self.getNibble P 0
  return (n, ← self.truncateFront P 1)

/-- `pop_next_nibble_back` (`src/nibbles.rs:287-292`). -/
def popNextBack (P : Profile) (self : Nibbles) : R (Nibble × Nibbles) := do
  let n ← self.getNibble P (← usub P self.count 1)
  return (n, ← self.truncateBack P 1)

/-- `get_nibble_range(start..end)` (`src/nibbles.rs:370-381`). -/
def getNibbleRange (P : Profile) (self : Nibbles) (start stop : Nat) : R Nibbles := do
  let rangeCount ← usub P stop start
  let shiftAmt ← umul P (← usub P self.count stop) 4
  let mask := (← createMaskOf1s (← umul P rangeCount 4)) <<< shiftAmt
  let rangePacked := (self.packed &&& mask) >>> shiftAmt
  return ⟨rangeCount, rangePacked⟩

/-- `get_next_nibbles` (`src/nibbles.rs:297-299`). -/
def getNextNibbles (P : Profile) (self : Nibbles) (n : Nat) : R Nibbles :=
  self.getNibbleRange P 0 n

/-- `reverse` (`src/nibbles.rs:534-551`): the loop state is `(mask, reversed_packed)`. -/
def reverse (self : Nibbles) : Nibbles :=
  let step := fun (st : U512 × U512) (i : Nat) =>
    let rev := st.2 <<< 4
    let nib := (self.packed &&& st.1) >>> (i * 4)
    (st.1 <<< 4, rev ||| nib)
  ⟨self.count, ((List.range self.count).foldl step (0xf#512, 0#512)).2⟩

/-- `pop_nibbles_front` (`src/nibbles.rs:305-310`). -/
def popNibblesFront (P : Profile) (self : Nibbles) (n : Nat) : R (Nibbles × Nibbles) := do
  let r ← self.getNibbleRange P 0 n
  return (r, ← self.truncateFront P n)

/-- `pop_nibbles_back` (`src/nibbles.rs:316-323`). -/
def popNibblesBack (P : Profile) (self : Nibbles) (n : Nat) : R (Nibbles × Nibbles) := do
  let r ← self.getNibbleRange P (← usub P self.count n) self.count
  return (r.reverse, ← self.truncateBack P n)

/-- `nibble_append_safety_asserts` (`src/nibbles.rs:750-753`). -/
def appendSafetyAsserts (self : Nibbles) (n : Nibble) : R Unit := do
  rassert (self.count < 64)
  rassert (n < 16)

/-- `push_nibble_front` (`src/nibbles.rs:330-337`). -/
def pushNibbleFront (P : Profile) (self : Nibbles) (n : Nibble) : R Nibbles := do
  self.appendSafetyAsserts n
  let shiftAmt ← umul P 4 self.count
  return ⟨← uadd P self.count 1, self.packed ||| (BitVec.ofNat 512 n <<< shiftAmt)⟩

/-- `push_nibble_back` (`src/nibbles.rs:344-349`). -/
def pushNibbleBack (P : Profile) (self : Nibbles) (n : Nibble) : R Nibbles := do
  self.appendSafetyAsserts n
  return ⟨← uadd P self.count 1, (self.packed <<< 4) ||| BitVec.ofNat 512 n⟩

/-- `push_nibbles_front` (`src/nibbles.rs:356-364`). -/
def pushNibblesFront (P : Profile) (self n : Nibbles) : R Nibbles := do
  let newCount ← uadd P self.count n.count
  rassert (newCount ≤ 64)
  let shiftAmt ← umul P 4 self.count
  return ⟨newCount, self.packed ||| (n.packed <<< shiftAmt)⟩

/-- `is_empty` (`src/nibbles.rs:442-444`). -/
def isEmpty (self : Nibbles) : Bool := self.count == 0

/-- The short-circuiting `(0..m).all(|i| a.get_nibble(i) == b.get_nibble(i))`, counting from index
`i` with `m` indices left (`src/nibbles.rs:450`). -/
def allEqFrom (P : Profile) (a b : Nibbles) : (i m : Nat) → R Bool
  | _, 0 => return true
  | i, m + 1 => do
    let x ← a.getNibble P i
    let y ← b.getNibble P i
    if x == y then allEqFrom P a b (i + 1) m else return false

/-- `nibbles_are_identical_up_to_smallest_count` (`src/nibbles.rs:448-451`). -/
def identicalUpToSmallest (P : Profile) (self other : Nibbles) : R Bool :=
  allEqFrom P self other 0 (min self.count other.count)

/-- `split_at_idx` (`src/nibbles.rs:458-475`). -/
def splitAtIdx (P : Profile) (self : Nibbles) (idx : Nat) : R (Nibbles × Nibbles) := do
  let postCount ← usub P self.count idx
  let postMask ← createMaskOf1s (← umul P postCount 4)
  let post : Nibbles := ⟨postCount, self.packed &&& postMask⟩
  let preMask := ~~~ postMask
  let preShiftAmt ← umul P postCount 4
  let pre : Nibbles := ⟨idx, (self.packed &&& preMask) >>> preShiftAmt⟩
  return (pre, post)

/-- `split_at_idx_prefix` (`src/nibbles.rs:481-489`). -/
def splitAtIdxPrefix (P : Profile) (self : Nibbles) (idx : Nat) : R Nibbles := do
  let shiftAmt ← umul P (← usub P self.count idx) 4
  let preMask := (← createMaskOf1s (← umul P idx 4)) <<< shiftAmt
  return ⟨idx, (self.packed &&& preMask) >>> shiftAmt⟩

/-- `split_at_idx_postfix` (`src/nibbles.rs:495-503`). -/
def splitAtIdxPostfix (P : Profile) (self : Nibbles) (idx : Nat) : R Nibbles := do
  let postfixCount ← usub P self.count idx
  let mask ← createMaskOf1s (← umul P postfixCount 4)
  return ⟨postfixCount, self.packed &&& mask⟩

/-- `merge_nibble` (`src/nibbles.rs:509-516`). -/
def mergeNibble (P : Profile) (self : Nibbles) (post : Nibble) : R Nibbles := do
  self.appendSafetyAsserts post
  return ⟨← uadd P self.count 1, (self.packed <<< 4) ||| BitVec.ofNat 512 post⟩

/-- `merge_nibbles` (`src/nibbles.rs:522-530`). -/
def mergeNibbles (P : Profile) (self post : Nibbles) : R Nibbles := do
  let newCount ← uadd P self.count post.count
  rassert (newCount ≤ 64)
  return ⟨newCount, (self.packed <<< (← umul P post.count 4)) ||| post.packed⟩

/-- The loop of `find_nibble_idx_that_differs_between_nibbles_equal_lengths`
(`src/nibbles.rs:587-595`), at index `i` with `m` iterations left. -/
def findDiffLoop (a b : U512) : (mask : U512) → (i m : Nat) → Nat
  | _, i, 0 => i
  | mask, i, m + 1 =>
    if a &&& mask != b &&& mask then i else findDiffLoop a b (mask >>> 4) (i + 1) m

/-- `find_nibble_idx_that_differs_between_nibbles_equal_lengths` (`src/nibbles.rs:573-596`). -/
def findDiffEqualLengths (P : Profile) (n1 n2 : Nibbles) : R Nat := do
  rassert (n1.count == n2.count)
  if n1.count == 0 then return n1.count
  let currMask : U512 := (0xf#512) <<< (← umul P (← usub P n1.count 1) 4)
  return findDiffLoop n1.packed n2.packed currMask 0 n1.count

/-- `find_nibble_idx_that_differs_between_nibbles_different_lengths`
(`src/nibbles.rs:556-566`). -/
def findDiffDifferentLengths (P : Profile) (n1 n2 : Nibbles) : R Nat := do
  let minCount := min n1.count n2.count
  findDiffEqualLengths P (← n1.getNibbleRange P 0 minCount) (← n2.getNibbleRange P 0 minCount)

/-- `min_bytes` (`src/nibbles.rs:715-717`). -/
def minBytes (P : Profile) (self : Nibbles) : R Nat := do
  return (← uadd P self.count 1) / 2

/-- `get_num_nibbles_in_key` (`src/nibbles.rs:720-722`). -/
def getNumNibblesInKey (k : U512) : Nat := (bitLen k.toNat + 3) / 4

/-- A slice `buf[start..]` of a fixed-size buffer; panics if `start` is out of range
(`src/nibbles.rs:607, 730`). -/
def sliceFrom (buf : Bytes) (start : Nat) : R Bytes :=
  if start ≤ buf.length then .ok (buf.drop start) else .error .indexOutOfBounds

/-- `bytes_be` (`src/nibbles.rs:726-731`). -/
def bytesBE (P : Profile) (self : Nibbles) : R Bytes := do
  sliceFrom self.packed.toBE (← usub P 64 (← self.minBytes P))

/-- A hex digit character of a value below 16 (for `src/nibbles.rs:198, 204`). -/
def hexDigit (upper : Bool) (d : Nat) : Char :=
  if d < 10 then Char.ofNat (48 + d) else Char.ofNat ((if upper then 55 else 87) + d)

/-- `hex::encode` / `hex::encode_upper` (`src/nibbles.rs:198, 204`). -/
def hexEncode (upper : Bool) (bs : Bytes) : List Char :=
  bs.flatMap fun b => [hexDigit upper (b.toNat / 16), hexDigit upper (b.toNat % 16)]

/-- `as_hex_str` with `hex::encode` or `hex::encode_upper`
(`src/nibbles.rs:599-619`; `LowerHex`/`UpperHex`/`Display` `src/nibbles.rs:159-164, 196-206`). -/
def asHexStr (P : Profile) (upper : Bool) (self : Nibbles) : R (List Char) := do
  let countBytes ← self.minBytes P
  let raw := hexEncode upper (← sliceFrom self.packed.toBE (← usub P 64 countBytes))
  match isEven self.count with
  | false => return ['0', 'x'] ++ raw.drop 1
  | true => return ['0', 'x'] ++ raw

/-- Value of a hex digit character (for `src/nibbles.rs:187`). -/
def hexVal (c : Char) : Option Nat :=
  if '0' ≤ c ∧ c ≤ '9' then some (c.toNat - 48)
  else if 'a' ≤ c ∧ c ≤ 'f' then some (c.toNat - 87)
  else if 'A' ≤ c ∧ c ≤ 'F' then some (c.toNat - 55)
  else none

/-- `StrToNibblesError` (`src/nibbles.rs:66-68`); the reason reported by the `uint` crate is not
modelled. -/
inductive StrError where
  | fromHex
  deriving DecidableEq, Repr

/-- `s.strip_prefix("0x").unwrap_or(s)` (`src/nibbles.rs:182`). -/
def strip0x : List Char → List Char
  | '0' :: 'x' :: s => s
  | s => s

/-- `U512::from_str` of the `uint` crate: strips one `0x`, rejects more than 128 digits and
non-hex characters, and reads a base-16 numeral (`src/nibbles.rs:187`). -/
def u512FromStr (s : List Char) : Except StrError U512 :=
  let v := strip0x s
  if v.length > 128 then .error .fromHex
  else match v.mapM hexVal with
    | none => .error .fromHex
    | some ds => .ok (BitVec.ofNat 512 (ds.foldl (fun a d => a * 16 + d) 0))

/-- `FromStr for Nibbles` (`src/nibbles.rs:177-194`). -/
def fromStr (s : List Char) : Except StrError Nibbles :=
  let stripped := strip0x s
  let leadingZeros := (stripped.findIdx? (· != '0')).getD stripped.length
  match u512FromStr s with
  | .error e => .error e
  | .ok packed => .ok ⟨leadingZeros + getNumNibblesInKey packed, packed⟩

/-- `to_hex_prefix_encoding` (`src/nibbles.rs:624-648`). -/
def toHexPrefixEncoding (P : Profile) (self : Nibbles) (isLeaf : Bool) : R Bytes := do
  let numNibbles ← uadd P self.count 1
  let numBytes := (← uadd P numNibbles 1) / 2
  let flagByteIdx ← usub P 65 numBytes
  let oddBit : Nat := match isEven self.count with
    | false => 1
    | true => 0
  let termBit : Nat := match isLeaf with
    | false => 0
    | true => 1
  let flags : UInt8 := UInt8.ofNat ((oddBit ||| (termBit <<< 1)) <<< 4)
  let bytes : Bytes := (0 : UInt8) :: self.packed.toBE
  let old ← rindex bytes flagByteIdx
  sliceFrom (bytes.set flagByteIdx (old ||| flags)) flagByteIdx

/-- `FromHexPrefixError` (`src/nibbles.rs:57-64`). -/
inductive FromHexPrefixError where
  | invalidFlags (n : Nibble)
  | tooLong (hex : List Char) (len : Nat)
  deriving DecidableEq, Repr

/-- `from_hex_prefix_encoding` (`src/nibbles.rs:651-705`).  The 64-byte scratch buffer, written
from index 0 upwards by `write_byte_iter_to_byte_buf` (`src/nibbles.rs:707-712`), is the list of
written bytes padded with zeros to 64 bytes (at most 34 bytes are written). -/
def fromHexPrefixEncoding (bs : Bytes) : R (Except FromHexPrefixError Nibbles) := do
  if bs.length > 33 then return .error (.tooLong (hexEncode false bs) bs.length)
  let b0 ← rindex bs 0
  let flagBits : Nat := (b0.toNat &&& 0b11110000) >>> 4
  let cont := fun (isLeaf : Bool) (modifier : Int) =>
    let count : Nat := ((bs.length * 2 : Int) + modifier).toNat
    let oddNibCount := (count &&& 1) == 1
    let written : Bytes :=
      (if oddNibCount then [b0 &&& 0b1111] else [])
        ++ (bs.drop 1).take 32
        ++ (if isLeaf then [16] else [])
    let nibblesRaw : Bytes := written ++ List.replicate (64 - written.length) 0
    let totBytes := (count + 1) / 2
    (.ok ⟨count, U512.fromBE (nibblesRaw.take totBytes)⟩ : Except FromHexPrefixError Nibbles)
  match flagBits with
  | 0b00 => return cont false (-2)
  | 0b01 => return cont false (-1)
  | 0b10 => return cont true 0
  | 0b11 => return cont true 1
  | f => return .error (.invalidFlags f)

/-- `from_h256_be` (`src/nibbles.rs:734-736, 743-748`). -/
def fromH256BE (v : H256) : Nibbles := ⟨64, U512.fromBE v.toList⟩

/-- `from_h256_le` (`src/nibbles.rs:739-741, 743-748`). -/
def fromH256LE (v : H256) : Nibbles := ⟨64, U512.fromLE v.toList⟩

end Nibbles
end EthTrie
