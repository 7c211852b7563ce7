import Verif.Nibbles.Lemmas

/-!
# The unit tests of `src/nibbles.rs`, replayed on the model

Each example is a test function of `src/nibbles.rs:766-1234`, evaluated by the kernel.  This checks
the reading of the source, not a property.  The tests build with overflow checks (`cargo test`).
-/

namespace EthTrie.Tests

open Nibbles

set_option exponentiation.threshold 600

/-- `From<i32> for Nibbles` (`src/testing_utils.rs:29-40`). -/
def nib (k : Nat) : Nibbles := ⟨getNumNibblesInKey (BitVec.ofNat 512 k), BitVec.ofNat 512 k⟩

/-- Is the result a panic? -/
def panics {α : Type} : R α → Bool
  | .ok _ => false
  | .error _ => true

abbrev D : Profile := .debug

/-- `get_nibble_works` -/
example : (nib 0x1234).getNibble D 0 = .ok 1 ∧ (nib 0x1234).getNibble D 3 = .ok 4 := by decide +kernel

/-- `pop_nibble_front_works` -/
example : (nib 0x1).popNextFront D = .ok (1, nib 0) ∧
    (nib 0x1234).popNextFront D = .ok (1, nib 0x234) := by decide +kernel

/-- `pop_nibble_back_works` -/
example : (nib 0x1).popNextBack D = .ok (1, nib 0) ∧
    (nib 0x1234).popNextBack D = .ok (4, nib 0x123) := by decide +kernel

/-- `pop_nibbles_front_works` -/
example : (nib 0x1234).popNibblesFront D 0 = .ok (nib 0, nib 0x1234) ∧
    (nib 0x1234).popNibblesFront D 1 = .ok (nib 1, nib 0x234) ∧
    (nib 0x1234).popNibblesFront D 3 = .ok (nib 0x123, nib 4) ∧
    (nib 0x1234).popNibblesFront D 4 = .ok (nib 0x1234, nib 0) := by decide +kernel

/-- `pop_nibbles_back_works` -/
example : (nib 0x1234).popNibblesBack D 0 = .ok (nib 0, nib 0x1234) ∧
    (nib 0x1234).popNibblesBack D 1 = .ok (nib 4, nib 0x123) ∧
    (nib 0x1234).popNibblesBack D 3 = .ok (nib 0x432, nib 1) ∧
    (nib 0x1234).popNibblesBack D 4 = .ok (nib 0x4321, nib 0) := by decide +kernel

/-- `get_next_nibbles_works` -/
example : (nib 0x1234).getNextNibbles D 0 = .ok .default ∧
    (nib 0x1234).getNextNibbles D 1 = .ok (nib 1) ∧
    (nib 0x1234).getNextNibbles D 2 = .ok (nib 0x12) ∧
    (nib 0x1234).getNextNibbles D 3 = .ok (nib 0x123) ∧
    (nib 0x1234).getNextNibbles D 4 = .ok (nib 0x1234) ∧
    (nib 0).getNextNibbles D 0 = .ok .default := by decide +kernel

/-- `get_nibble_range_works` -/
example : (nib 0x1234).getNibbleRange D 0 0 = .ok (nib 0) ∧
    (nib 0x1234).getNibbleRange D 0 1 = .ok (nib 1) ∧
    (nib 0x1234).getNibbleRange D 0 2 = .ok (nib 0x12) ∧
    (nib 0x1234).getNibbleRange D 0 4 = .ok (nib 0x1234) := by decide +kernel

/-- `truncate_nibbles_works` -/
example : [0, 1, 2, 3, 4, 8].map ((nib 0x1234).truncateFront D ·) =
      [0x1234, 0x234, 0x34, 4, 0, 0].map (.ok ∘ nib) ∧
    [0, 1, 2, 3, 4, 8].map ((nib 0x1234).truncateBack D ·) =
      [0x1234, 0x123, 0x12, 1, 0, 0].map (.ok ∘ nib) := by decide +kernel

/-- `split_at_idx_works`, `split_at_idx_panics_if_out_of_range` -/
example : (nib 0x1234).splitAtIdx D 0 = .ok (nib 0, nib 0x1234) ∧
    (nib 0x1234).splitAtIdx D 1 = .ok (nib 1, nib 0x234) ∧
    (nib 0x1234).splitAtIdx D 2 = .ok (nib 0x12, nib 0x34) ∧
    (nib 0x1234).splitAtIdx D 3 = .ok (nib 0x123, nib 4) ∧
    panics ((nib 0x1234).splitAtIdx D 5) := by decide +kernel

/-- `split_at_idx_prefix_works`, `split_at_idx_postfix_works` -/
example : [0, 1, 3].map ((nib 0x1234).splitAtIdxPrefix D ·) = [0, 1, 0x123].map (.ok ∘ nib) ∧
    [0, 1, 3].map ((nib 0x1234).splitAtIdxPostfix D ·) = [0x1234, 0x234, 4].map (.ok ∘ nib) := by
  decide +kernel

/-- `merge_nibble_works`, `merge_nibbles_works` -/
example : (nib 0).mergeNibble D 1 = .ok (nib 1) ∧
    (nib 0x1234).mergeNibble D 5 = .ok (nib 0x12345) ∧
    (nib 0x12).mergeNibbles D (nib 0x34) = .ok (nib 0x1234) ∧
    (nib 0x12).mergeNibbles D (nib 0) = .ok (nib 0x12) ∧
    (nib 0).mergeNibbles D (nib 0x34) = .ok (nib 0x34) ∧
    (nib 0).mergeNibbles D (nib 0) = .ok (nib 0) := by decide +kernel

/-- `reverse_works` -/
example : [0, 1, 0x12, 0x1234].map (fun k => (nib k).reverse) = [0, 1, 0x21, 0x4321].map nib := by
  decide +kernel

/-- `find_nibble_idx_that_differs_between_nibbles_works` -/
example : findDiffEqualLengths D (nib 0x1234) (nib 0x2567) = .ok 0 ∧
    findDiffEqualLengths D (nib 0x1234) (nib 0x1256) = .ok 2 ∧
    findDiffEqualLengths D (nib 0x1234) (nib 0x1235) = .ok 3 ∧
    findDiffEqualLengths D (nib 0x1234) (nib 0x1234) = .ok 4 ∧
    findDiffDifferentLengths D (nib 0x1234) (nib 0x12345) = .ok 4 := by decide +kernel

/-- `nibbles_are_identical_up_to_smallest_count_works` -/
example : [0x1234, 1, 0x12, 0x12345678, 0x23, 4, 5, 0x13].map
      (fun k => (nib 0x1234).identicalUpToSmallest D (nib k)) =
    [true, true, true, true, false, false, false, false].map .ok := by decide +kernel

/-- `nibbles_to_hex_prefix_encoding_works` -/
example : (nib 0x1234).toHexPrefixEncoding D false = .ok [0x00, 0x12, 0x34] ∧
    (nib 0x1234).toHexPrefixEncoding D true = .ok [0x20, 0x12, 0x34] ∧
    (nib 0x12345).toHexPrefixEncoding D false = .ok [0x11, 0x23, 0x45] ∧
    (nib 0x12345).toHexPrefixEncoding D true = .ok [0x31, 0x23, 0x45] := by decide +kernel

/-- `from_hex_prefix_encoding_str` of the tests. -/
def decodeStr (s : String) : R (Except FromHexPrefixError Nibbles) :=
  match fromStr s.toList with
  | .error _ => .error .expectFailed
  | .ok n => do fromHexPrefixEncoding (← n.bytesBE D)

/-- `nibbles_from_hex_prefix_encoding_works` -/
example : decodeStr "0x001234" = .ok (.ok (nib 0x1234)) ∧
    decodeStr "0x201234" = .ok (.ok (nib 0x123410)) ∧
    decodeStr "0x112345" = .ok (.ok (nib 0x12345)) ∧
    decodeStr "0x312345" = .ok (.ok (nib 0x1234510)) ∧
    (decodeStr "0x2000080000000000000000000000000000000000000000000000000000000000").map
        (fun r => match r with | .ok n => some n | .error _ => none) =
      .ok (match fromStr "0x0008000000000000000000000000000000000000000000000000000000000010".toList with
        | .ok n => some n
        | .error _ => none) := by decide +kernel

/-- `nibbles_from_hex_prefix_encoding_errors_if_flags_invalid` -/
example : decodeStr "0x401234" = .ok (.error (.invalidFlags 4)) ∧
    decodeStr "0xF12345" = .ok (.error (.invalidFlags 15)) := by decide +kernel

/-- `nibbles_from_hex_prefix_encoding_errors_if_too_large` -/
example : fromHexPrefixEncoding (0x10 :: List.replicate 33 0) =
    .ok (.error (.tooLong (['1'] ++ List.replicate 67 '0') 34)) := by
  decide +kernel

/-- `from_hex_prefix_encoding_edge_case`: the decoder is given a string whose flags are 3. -/
example : (fromHexPrefixEncoding ((U512.toBE (BitVec.ofNat 512
      0x3ab76c381c0f8ea617ea96780ffd1e165c754b28a41a95922f9f70682c581353)).drop 32)).map
      (fun r => match r with | .ok n => n.count | .error _ => 0) = .ok 65 := by
  decide +kernel

/-- `nibbles_to_bytes_works`: the bytes, read as a number, are the number again. -/
example : ∀ v ∈ [0, 4, 0x1234, 0x12345, 0x123456789001aaa, 0x123456789001aaaa],
    ((ofUInt 64 (BitVec.ofNat 64 v)).bytesBE D).map
      (fun bs => bs.foldl (fun a b => a * 256 + b.toNat) 0) = .ok v := by decide +kernel

/-- `H256::from_low_u64_be` for values below 2^16. -/
def lowH256 (v : Nat) : H256 :=
  Vector.ofFn fun i => if i.val = 30 then UInt8.ofNat (v / 256) else if i.val = 31 then UInt8.ofNat v else 0

/-- `nibbles_from_h256_works` -/
example : ((fromH256BE (lowH256 0)).asHexStr D false).map String.ofList =
      .ok "0x0000000000000000000000000000000000000000000000000000000000000000" ∧
    ((fromH256BE (lowH256 2048)).asHexStr D false).map String.ofList =
      .ok "0x0000000000000000000000000000000000000000000000000000000000000800" ∧
    ((fromH256LE (lowH256 0)).asHexStr D false).map String.ofList =
      .ok "0x0000000000000000000000000000000000000000000000000000000000000000" ∧
    ((fromH256LE (lowH256 2048)).asHexStr D false).map String.ofList =
      .ok "0x0008000000000000000000000000000000000000000000000000000000000000" := by decide +kernel

/-- A parsed string, formatted again. -/
def reformat (s : String) : R String :=
  match fromStr s.toList with
  | .error _ => .error .expectFailed
  | .ok n => do return String.ofList (← n.asHexStr D false)

/-- `nibbles_from_str_works` -/
example : reformat "0x0" = .ok "0x0" ∧ reformat "0" = .ok "0x0" ∧
    reformat "0x800" = .ok "0x800" ∧ reformat "800" = .ok "0x800" := by decide +kernel

/-- `nibbles_from_nibble_works`, `nibbles_from_nibble_panics_when_not_nibble` -/
example : (fromNibble 0).map (·.packed.toNat) = .ok 0 ∧ (fromNibble 1).map (·.packed.toNat) = .ok 1 ∧
    (fromNibble 0xf).map (·.packed.toNat) = .ok 0xf ∧ panics (fromNibble 0x10) := by decide +kernel

/-- `to_nibbles_works` -/
example : [0, 1, 0x1234].map (fun v => ((ofUInt 64 (BitVec.ofNat 64 v)).asHexStr D false).map String.ofList) =
      ["0x", "0x1", "0x1234"].map .ok ∧
    [0, 1, 0x1234].map (fun v =>
        ((ofUInt 64 (BitVec.ofNat 64 v)).bytePadded.asHexStr D false).map String.ofList) =
      ["0x", "0x01", "0x1234"].map .ok := by decide +kernel

/-- `examples/simple.rs:70-79` -/
example : (match fromBytesBE [1, 35, 69] with
      | .ok n => (n.asHexStr D false).map String.ofList
      | .error _ => .error .expectFailed) = .ok "0x012345" ∧
    (match fromBytesLE [69, 35, 1] with
      | .ok n => (n.asHexStr D false).map String.ofList
      | .error _ => .error .expectFailed) = .ok "0x012345" := by decide +kernel

end EthTrie.Tests
