import Verif.Sys.Over
import Verif.Trie.GetExact
import Verif.Sys.Calls
import Verif.KernelRfl

/-!
# Concrete programs for examples and counterexamples
-/

namespace EthTrie

/-- A (bad) hash function for concrete runs. -/
def kec0 : Bytes → H256 := fun b => Vector.replicate 32 (UInt8.ofNat b.length)

/-- What the calls of a program return. -/
def Kind.obs (K : Kind) (P : Profile) (kec : Bytes → H256) (cs : List Cmd) : R (List Obs) :=
  (K.run P kec cs).map (·.2)

/-- What programs return can be computed on list-keyed tries with the cells of roots. -/
theorem Kind.obs_exact (K : Kind) (P : Profile) (kec : Bytes → H256) {cs : List Cmd}
    (hc : ∀ c ∈ cs, c.Short) : K.obs P kec cs = (PSys.start.run P K.cells kec cs).map (·.2) := by
  have := K.run_refine P kec cs hc
  unfold Kind.obs
  revert this
  cases PSys.start.run P K.cells kec cs with
  | error e => intro h; rw [show K.run P kec cs = .error e from h]; rfl
  | ok r =>
    obtain ⟨p, os⟩ := r
    rintro ⟨s', w', Z', h1, _⟩
    rw [h1]; rfl

/-- What programs return can be computed on list-keyed tries. -/
theorem Kind.obs_eq (K : Kind) (P : Profile) (kec : Bytes → H256) {cs : List Cmd}
    (hc : ∀ c ∈ cs, c.Short) (hs : CacheSafe cs) :
    K.obs P kec cs = (plainRun P kec [] cs).map (·.2) := by
  rw [K.obs_exact P kec hc, ← hs.run (C := K.cells)]
  cases PSys.start.run P K.cells kec cs <;> rfl

end EthTrie
