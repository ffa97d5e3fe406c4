/- The hash of a freshly built copy of an object: no memoisation anywhere. -/
import Verif.Model.CacheHash

namespace Pddl.Spec
open Pddl.CacheHash

variable {L S : Type} (K : Classes L S) (σ : S)

mutual
def freshHash : Obj L → Int
  | .mk _ lab kids => K.comb σ lab (freshHashes kids)
def freshHashes : List (Obj L) → List Int
  | [] => []
  | o :: os => freshHash o :: freshHashes os
end

end Pddl.Spec
