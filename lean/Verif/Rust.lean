/-!
# The fragment of Rust semantics used by the model

Panics are explicit error values, `usize` arithmetic is parameterised by the build profile.
-/

namespace EthTrie

/-- Bytes (`u8`, `Vec<u8>`, `&[u8]`, `bytes::Bytes`). -/
abbrev Bytes := List UInt8

/-- A 32-byte hash (`ethereum_types::H256`). -/
abbrev H256 := Vector UInt8 32

/-- The different ways in which the modelled code can panic.  Which message is printed is not
modelled beyond this classification. -/
inductive Panic where
  /-- integer overflow caught by overflow checks, or `U512` subtraction underflow -/
  | overflow
  /-- a failed `assert!`/`assert_eq!`/`debug_assert!` -/
  | assertFailed
  /-- array / slice index out of bounds -/
  | indexOutOfBounds
  /-- `Option::expect` / `Result::unwrap` on the wrong variant -/
  | expectFailed
  /-- `src/trie_ops.rs:374` insert traversed a `Hash` node -/
  | hashInsert
  /-- `src/trie_ops.rs:461` delete traversed a `Hash` node -/
  | hashDelete
  /-- `src/trie_ops.rs:764` a hash was placed on an existing node -/
  | hashOnExisting
  /-- `src/trie_ops.rs:562` extension with an impossible child -/
  | impossibleExtChild
  /-- `unreachable!()` -/
  | unreachableCode
  deriving DecidableEq, Repr

/-- A computation that may panic. -/
abbrev R := Except Panic

/-- Build profile.  `overflowChecks = true` is `cargo build`/`cargo test`, `false` is
`cargo build --release`. -/
structure Profile where
  overflowChecks : Bool
  deriving DecidableEq, Repr

/-- The debug profile. -/
def Profile.debug : Profile := ⟨true⟩
/-- The release profile. -/
def Profile.release : Profile := ⟨false⟩

/-- `a - b` on `usize` (64-bit). -/
def usub (P : Profile) (a b : Nat) : R Nat :=
  if b ≤ a then .ok (a - b)
  else if P.overflowChecks then .error .overflow
  else .ok (a + 2 ^ 64 - b)

/-- `a + b` on `usize` (64-bit). -/
def uadd (P : Profile) (a b : Nat) : R Nat :=
  if a + b < 2 ^ 64 then .ok (a + b)
  else if P.overflowChecks then .error .overflow
  else .ok ((a + b) % 2 ^ 64)

/-- `a * b` on `usize` (64-bit). -/
def umul (P : Profile) (a b : Nat) : R Nat :=
  if a * b < 2 ^ 64 then .ok (a * b)
  else if P.overflowChecks then .error .overflow
  else .ok (a * b % 2 ^ 64)

/-- `assert!(c)`. -/
def rassert (c : Bool) : R Unit := if c then .ok () else .error .assertFailed

/-- Bounds-checked list indexing `xs[i]`. -/
def rindex {α : Type} (xs : List α) (i : Nat) : R α :=
  match xs[i]? with
  | some x => .ok x
  | none => .error .indexOutOfBounds

/-- Bounds check of an index into a `[_; 16]` array. -/
def idx16 (i : Nat) : R (Fin 16) :=
  if h : i < 16 then .ok ⟨i, h⟩ else .error .indexOutOfBounds

/-- Assignment `f[i] = x` in an array (or heap) seen as a function. -/
def upd {ι β : Type} [DecidableEq ι] (f : ι → β) (i : ι) (x : β) : ι → β :=
  fun j => if j = i then x else f j

@[simp] theorem upd_same {ι β : Type} [DecidableEq ι] (f : ι → β) (i : ι) (x : β) :
    upd f i x i = x := by simp [upd]
theorem upd_other {ι β : Type} [DecidableEq ι] (f : ι → β) {i j : ι} (x : β) (h : j ≠ i) :
    upd f i x j = f j := by simp [upd, h]

/-- The monad of computations that read and write a state `S` (the heap of cache cells) and may
panic.  On a panic the state is lost (the model never continues after a panic). -/
def M (S α : Type) : Type := S → R (α × S)

namespace M
variable {S α β : Type}

/-- `return` -/
def pure (a : α) : M S α := fun s => .ok (a, s)
/-- sequencing -/
def bind (m : M S α) (f : α → M S β) : M S β := fun s =>
  match m s with
  | .error e => .error e
  | .ok (a, s') => f a s'

instance : Monad (M S) where
  pure := M.pure
  bind := M.bind

/-- lift a stateless computation -/
def lift (r : R α) : M S α := fun s =>
  match r with
  | .error e => .error e
  | .ok a => .ok (a, s)

instance : MonadLift R (M S) := ⟨M.lift⟩

/-- panic -/
def panic (e : Panic) : M S α := fun _ => .error e

@[simp] theorem pure_run (a : α) (s : S) : (Pure.pure a : M S α) s = .ok (a, s) := rfl
@[simp] theorem panic_run (e : Panic) (s : S) : (M.panic e : M S α) s = .error e := rfl
theorem bind_run (m : M S α) (f : α → M S β) (s : S) :
    (m >>= f) s = (match m s with
      | .error e => .error e
      | .ok (a, s') => f a s') := rfl
@[simp] theorem lift_run_ok (a : α) (s : S) : (M.lift (.ok a) : M S α) s = .ok (a, s) := rfl
@[simp] theorem lift_run_err (e : Panic) (s : S) : (M.lift (.error e) : M S α) s = .error e := rfl

end M

/-- What a stateful computation returns, forgetting the final state. -/
def runVal {S α : Type} (m : M S α) (s : S) : R α := (m s).map Prod.fst

end EthTrie
