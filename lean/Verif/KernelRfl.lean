import Verif.Rust
import Mathlib.Tactic.IntervalCases
import Lean.Elab.Tactic.Basic
import Lean.Meta.AppBuilder

/-!
# Computation with an unknown hash function

Examples and counterexamples are closed terms apart from the hash function.  `kernel_rfl` closes an
equation by reflexivity and leaves it to the kernel to check that both sides compute to the same term;
the unknown hash function stays as it is.  For lengths to compute its results are written out byte by
byte first (`spell`).
-/

namespace EthTrie

open Lean Elab Tactic Meta in
/-- Close an equation by reflexivity; the two sides are compared by the kernel. -/
elab "kernel_rfl" : tactic => do
  let g ← getMainGoal
  let t ← instantiateMVars (← g.getType)
  let some (_, lhs, _) := t.eq? | throwError "kernel_rfl: not an equation"
  g.assign (← mkEqRefl lhs)

/-- A hash, byte by byte. -/
def spell (f : Fin 32 → UInt8) : H256 :=
  ⟨#[f 0, f 1, f 2, f 3, f 4, f 5, f 6, f 7, f 8, f 9, f 10, f 11, f 12, f 13, f 14, f 15, f 16, f 17,
    f 18, f 19, f 20, f 21, f 22, f 23, f 24, f 25, f 26, f 27, f 28, f 29, f 30, f 31], rfl⟩

theorem spell_get (v : H256) : spell (fun i => v[i]) = v := by
  apply Vector.ext
  intro i hi
  interval_cases i <;> rfl

/-- What holds for hash functions that are written out byte by byte holds for all. -/
theorem spelled {p : (Bytes → H256) → Prop} (h : ∀ f : Bytes → Fin 32 → UInt8, p fun b => spell (f b))
    (kec : Bytes → H256) : p kec := by
  have := h fun b i => (kec b)[i]
  rwa [show (fun b => spell fun i => (kec b)[i]) = kec from funext fun b => spell_get (kec b)] at this

end EthTrie
