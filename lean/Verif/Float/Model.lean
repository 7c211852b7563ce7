import Mathlib.Data.Rat.Floor
import Mathlib.Data.Int.Log
import Mathlib.Data.Rat.Lemmas
import Mathlib.Algebra.Order.Field.Rat

/-!
# Non-negative numbers of type `f32`

`f32` is IEEE 754 binary32 with rounding to nearest, ties to even (Rust reference: numeric casts from
integers round to nearest, ties to even; arithmetic follows IEEE 754).  The statistics
(`src/debug_tools/stats.rs`) only cast unsigned integers, divide, and multiply by `100.0`, so negative
numbers and negative zero do not occur and are not modelled.  A finite number is given by its exact
rational value.
-/

namespace EthTrie

/-- A non-negative `f32` (as used in `src/debug_tools/stats.rs:71, 258-259`). -/
inductive F32 where
  | nan
  | inf
  | fin (q : ℚ)
  deriving DecidableEq

/-- Rounding to the nearest integer, ties to even (for `src/debug_tools/stats.rs:71, 258-259`). -/
def roundEven (q : ℚ) : ℤ :=
  if q - ⌊q⌋ < 1 / 2 then ⌊q⌋
  else if 1 / 2 < q - ⌊q⌋ then ⌊q⌋ + 1
  else if ⌊q⌋ % 2 = 0 then ⌊q⌋ else ⌊q⌋ + 1

namespace F32

/-- The exponent of the last of the 24 bits of a number of the size of `q`; not below that of the
least subnormal number (for `src/debug_tools/stats.rs:71, 258-259`). -/
def lastBit (q : ℚ) : ℤ := max (Int.log 2 q - 23) (-149)

/-- The value `q` is rounded to (for `src/debug_tools/stats.rs:71, 258-259`). -/
def roundRat (q : ℚ) : ℚ := roundEven (q / 2 ^ lastBit q) * 2 ^ lastBit q

/-- The number that the exact result `q ≥ 0` is rounded to (for `src/debug_tools/stats.rs:71, 258-259`). -/
def round (q : ℚ) : F32 := if roundRat q < 2 ^ 128 then .fin (roundRat q) else .inf

/-- `n as f32` (`src/debug_tools/stats.rs:71, 258-259`). -/
def ofNat (n : ℕ) : F32 := round n

/-- Division (`src/debug_tools/stats.rs:71, 258-259`). -/
def div : F32 → F32 → F32
  | .nan, _ => .nan
  | .inf, .fin _ => .inf
  | .inf, _ => .nan
  | .fin a, .fin b =>
    if b = 0 then if a = 0 then .nan else .inf
    else round (a / b)
  | .fin _, .inf => .fin 0
  | .fin _, .nan => .nan

/-- Multiplication (`src/debug_tools/stats.rs:71`). -/
def mul : F32 → F32 → F32
  | .nan, _ => .nan
  | .inf, .fin b => if b = 0 then .nan else .inf
  | .inf, .inf => .inf
  | .inf, .nan => .nan
  | .fin a, .fin b => round (a * b)
  | .fin a, .inf => if a = 0 then .nan else .inf
  | .fin _, .nan => .nan

/-- Numbers that are exactly representable: at most 24 bits. -/
def Rep (q : ℚ) : Prop := ∃ (m : ℕ) (e : ℤ), m < 2 ^ 24 ∧ -149 ≤ e ∧ e ≤ 104 ∧ q = m * 2 ^ e

end F32
end EthTrie
