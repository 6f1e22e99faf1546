import Verif.Orient.Model
import Verif.Paths.Model

/-!
# The FCI parts: the collider rule and inducing paths

Models causy/causal_discovery/constraint/orientation_rules/fci.py and
causy/causal_discovery/constraint/algorithms/fci.py.

Simplifications.

* The set of common neighbours is iterated in an order given by the parameter `o`, as for `ColliderTest`.
* The metadata `{"edge_type": None}` is the record whose only field set is `mark`.
-/

namespace Verif.Fci
open Graph CI Orient
variable {ι ρ : Type} [DecidableEq ι]

/-- `TestResult(u=u, v=z, action=UPDATE_EDGE_DIRECTED, data={"edge_type": None})` (fci.py:75-86) -/
def arrowMark (u z : ι) : CResult ι ρ := ⟨u, z, .updateEdgeDirected, some { mark := true }⟩

/-- the loop over the common neighbours (fci.py:64-87) -/
def fciLoop (g : CGraph ι ρ) (x y : ι) (actions : List (CResult ι ρ)) : List ι → Except PyErr (List (CResult ι ρ))
  | [] => .ok []
  | z :: zs =>
    if z ∉ g.nodes then .error .keyError
    else match separators actions with
      | .error e => .error e
      | .ok seps =>
        match fciLoop g x y actions zs with
        | .error e => .error e
        | .ok rest => .ok (if z ∈ seps then rest else arrowMark x z :: arrowMark y z :: rest)

/-- `ColliderRuleFCI.process` (fci.py:22-88) -/
def fciProcess (o : Ord ι ρ) (c : List ι) (g : CGraph ι ρ) : Except PyErr (Option (List (CResult ι ρ))) :=
  match c with
  | x :: y :: _ =>
    if x ∉ g.nodes then .error .keyError
    else if y ∉ g.nodes then .error .keyError
    else if g.undirectedEdgeExists x y then .ok none
    else match commonKeys g x y with
      | .error e => .error e
      | .ok zs =>
        match fciLoop g x y (g.retrieveEdgeHistory x y .removeEdgeUndirected) (o g x y zs) with
        | .error e => .error e
        | .ok rs => .ok (some rs)
  | _ => .error .indexError

/-- `ColliderRuleFCI` (fci.py:13-20): the generator hands out the pairs of nodes, the process does not take the pending
actions -/
def fciStep (o : Ord ι ρ) : Step ι (Info ι ρ) := ruleStep "ColliderRuleFCI" (fciProcess o)

/-! ## inducing paths -/

/-- the loop over the paths (algorithms/fci.py:26-32).  A path is a list of edges; the inner loop runs over its indices
1, ..., length - 2, and its first iteration calls `bidirected_edge_exists`, which is defined nowhere in the package, so that
the attribute lookup raises. -/
def inducingLoop : List (List (ι × ι)) → Except PyErr Bool
  | [] => .ok false
  | p :: ps => if 1 < p.length - 1 then .error .attributeError else inducingLoop ps

/-- `inducing_path_exists` (algorithms/fci.py:8-33) -/
def inducingPathExists {δ : Type} (g : Graph ι δ) (fuel : Nat) (u v : ι) : Except PyErr Bool :=
  match g.directedPathExists v fuel u with
  | .error e => .error e
  | .ok false => .ok false
  | .ok true =>
    match g.directedPaths v fuel u with
    | .error e => .error e
    | .ok ps => inducingLoop ps

end Verif.Fci
