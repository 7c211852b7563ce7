import Verif.Spec.Exact

/-!
# Specification: contents that can be collected again from their own items
-/

namespace EthTrie
namespace KMap

/-- No stored key ends inside a run of nibbles of the other entries: if entries extend a stored key,
all with the same next nibble, then they are just one value. -/
def Collectable (m : KMap) : Prop := ∀ k, m k ≠ none → ¬ (m.erase k).EndsInside k

end KMap
end EthTrie
