import Verif.Spec.Map
import Verif.Sys.BuildModel

/-!
# Specification: the contents of assembled nodes
-/

namespace EthTrie

open Spec KMap

/-- Everything with a prefix in front of its key. -/
def KMap.under (n : Key) (m : KMap) : KMap := fun k =>
  if n <+: k then m (k.drop n.length) else none

/-- What is found below the nibbles `q` in the `i`th of some tries, if there is one. -/
def KMap.below (ms : List KMap) (i : Nat) (q : Key) : KMap := ((ms[i]?).getD KMap.empty).sub q

mutual

/-- The contents of a node that is made of parts of tries with the contents `ms`. -/
def BNode.mean (ms : List KMap) : BNode → KMap
  | .empty => KMap.empty
  | .hash h => KMap.empty.put [] (.hash h)
  | .leaf n v => KMap.empty.put n.toList (.val v)
  | .ext n c => KMap.under n.toList (c.mean ms)
  | .branch cs v => fun
    | [] => if v = [] then none else some (.val v)
    | d :: k => (cs d).mean ms k
  | .copy i q => KMap.below ms i q

/-- The contents of a child. -/
def BChild.mean (ms : List KMap) : BChild → KMap
  | .share i q => KMap.below ms i q
  | .new n => n.mean ms
  | .put _ _ n => n.mean ms

end

end EthTrie
