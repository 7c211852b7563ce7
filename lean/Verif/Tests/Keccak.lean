import Verif.Rust

/-!
# Keccak-256, for replaying the tests of the crate

The crate uses `keccak_hash::keccak` (`src/trie_hashing.rs:92-94`).  The theorems hold for every
function in its place; this is the real one, used in `Verif/Tests` only.  Lanes are natural numbers
below 2^64.
-/

namespace EthTrie.Tests

/-- Rotation of a 64-bit lane to the left. -/
def rotl (x n : Nat) : Nat := ((x <<< n) ||| (x >>> (64 - n))) % 2 ^ 64

/-- Rotation offsets, lane `x + 5 y`. -/
def offsets : List Nat :=
  [0, 1, 62, 28, 27, 36, 44, 6, 55, 20, 3, 10, 43, 25, 39, 41, 45, 15, 21, 8, 18, 2, 61, 56, 14]

/-- Round constants. -/
def roundConsts : List Nat :=
  [0x0000000000000001, 0x0000000000008082, 0x800000000000808a, 0x8000000080008000,
   0x000000000000808b, 0x0000000080000001, 0x8000000080008081, 0x8000000000008009,
   0x000000000000008a, 0x0000000000000088, 0x0000000080008009, 0x000000008000000a,
   0x000000008000808b, 0x800000000000008b, 0x8000000000008089, 0x8000000000008003,
   0x8000000000008002, 0x8000000000000080, 0x000000000000800a, 0x800000008000000a,
   0x8000000080008081, 0x8000000000008080, 0x0000000080000001, 0x8000000080008008]

/-- Evaluate the elements of a list (helps the kernel, does nothing else). -/
def force : List Nat → (List Nat → List Nat) → List Nat
  | [], k => k []
  | x :: xs, k => match x with
    | 0 => force xs fun ys => k (0 :: ys)
    | n + 1 => force xs fun ys => k ((n + 1) :: ys)

/-- θ, ρ, π, χ, ι. -/
def round (a : List Nat) (rc : Nat) : List Nat :=
  let c := (List.range 5).map fun x =>
    (List.range 5).foldl (fun s y => s ^^^ a.getD (x + 5 * y) 0) 0
  force c fun c =>
  let d := (List.range 5).map fun x => c.getD ((x + 4) % 5) 0 ^^^ rotl (c.getD ((x + 1) % 5) 0) 1
  force d fun d =>
  -- `b[y, 2x + 3y] = rotl(a[x, y])`, read backwards
  let b := (List.range 25).map fun i =>
    let y := i % 5
    let w := i / 5
    let x := (w + 5 - (3 * y) % 5) * 3 % 5
    rotl (a.getD (x + 5 * y) 0 ^^^ d.getD x 0) (offsets.getD (x + 5 * y) 0)
  force b fun b =>
  let e := (List.range 25).map fun i =>
    let x := i % 5
    let y := i / 5
    b.getD i 0 ^^^ (((2 ^ 64 - 1) ^^^ b.getD ((x + 1) % 5 + 5 * y) 0) &&& b.getD ((x + 2) % 5 + 5 * y) 0)
  force e fun e => match e with
    | e0 :: es => (e0 ^^^ rc) :: es
    | [] => []

/-- The permutation Keccak-f[1600]. -/
def keccakF (a : List Nat) : List Nat := roundConsts.foldl round a

/-- A little-endian lane from bytes. -/
def laneOf (bs : List Nat) : Nat := bs.foldr (fun b acc => acc * 256 + b) 0

/-- The first `n` lanes of a byte string. -/
def lanes : Nat → List Nat → List Nat
  | 0, _ => []
  | n + 1, bs => laneOf (bs.take 8) :: lanes n (bs.drop 8)

/-- Absorb `n` blocks of 136 bytes. -/
def absorb : Nat → List Nat → List Nat → List Nat
  | 0, st, _ => st
  | n + 1, st, bs =>
    let blk := lanes 17 bs
    absorb n (keccakF ((List.range 25).map fun i => st.getD i 0 ^^^ blk.getD i 0)) (bs.drop 136)

/-- Padding `1 0* 1` of the original Keccak. -/
def pad (bs : List Nat) : List Nat :=
  let r := 136 - bs.length % 136
  bs ++ if r = 1 then [0x81] else 0x01 :: (List.replicate (r - 2) 0 ++ [0x80])

/-- Keccak-256. -/
def keccak256 (bs : Bytes) : H256 :=
  let p := pad (bs.map UInt8.toNat)
  let st := absorb (p.length / 136) (List.replicate 25 0) p
  Vector.ofFn fun i => UInt8.ofNat (st.getD (i.val / 8) 0 >>> (8 * (i.val % 8)))

end EthTrie.Tests
