import Verif.Spec.Program

/-!
# Specification: the effect of calls on finite maps
-/

namespace EthTrie

open KMap

/-- The contents of all tries after a call; subsets are not covered. -/
def Cmd.effect (ms : List KMap) : Cmd → List KMap
  | .new => ms ++ [KMap.empty]
  | .fromIter xs => ms ++ [KMap.empty.putAll xs]
  | .clone i => match ms[i]? with
    | some m => ms ++ [m]
    | none => ms
  | .insert i k v => match ms[i]? with
    | some m => ms.set i (m.put k v)
    | none => ms
  | .extend i xs => match ms[i]? with
    | some m => ms.set i (m.putAll xs)
    | none => ms
  | .delete i k => match ms[i]? with
    | some m => ms.set i (m.erase k)
    | none => ms
  | _ => ms

/-- The contents of all tries at the end of a program. -/
def effects (cs : List Cmd) : List KMap := cs.foldl Cmd.effect []

end EthTrie
