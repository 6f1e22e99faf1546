import Verif.CI.Model

/-!
# Direct effects (causy/causal_effect_estimation/multivariate_regression.py)

Simplifications:
* The values of the nodes (`Node.values`) are kept beside the graph, as lists; they never change during a run.
* `torch.linalg.lstsq(..., driver="gelsd").solution` is a parameter on a list of columns; the properties assume that it
  solves the least-squares problem in exact arithmetic (`Effects/Spec.lean`).
* `process` writes the effect into the stored dictionary before proposing it; the proposed `UPDATE_EDGE_DIRECTED` writes the
  same value again, and no other call of the step reads the metadata of that edge.  (In a dry run the code leaves the
  first write behind, as it does when a later pair raises; the model does not.)
* `parent != cause_variable` compares pydantic models field by field, names and ids first, so distinct nodes of a graph
  differ and a node equals itself; it is modelled as comparison of ids.
-/

namespace Verif
namespace Effects
open Graph CI
variable {ι ρ : Type} [DecidableEq ι]

/-- what the step reads besides the graph -/
structure Source (ι ρ : Type) where
  /-- `graph.nodes[id].values` -/
  values : ι → Option (List ρ)
  /-- the solution of the least-squares problem, one coefficient per column -/
  lstsq : List (List ρ) → List ρ → List ρ

/-- `torch.stack(columns, dim=1)` (multivariate_regression.py:45-52): `TypeError` for a `None`, `RuntimeError` for columns
of different lengths or no column -/
def stack (cols : List (Option (List ρ))) : Except PyErr (List (List ρ)) :=
  if cols.any Option.isNone then .error .typeError
  else
    match cols.filterMap id with
    | [] => .error .runtimeError
    | x :: xs => if xs.all (fun z => decide (z.length = x.length)) then .ok (x :: xs) else .error .runtimeError

/-- the regression (multivariate_regression.py:45-62): `None.view` is an `AttributeError`; the numbers of rows must agree -/
def coefficient (D : Source ι ρ) (others : List ι) (x y : ι) : Except PyErr ρ :=
  match stack ((x :: others).map D.values) with
  | .error e => .error e
  | .ok cols =>
    match D.values y with
    | none => .error .attributeError
    | some t =>
      if cols.all (fun z => decide (z.length = t.length)) then
        match D.lstsq cols t with
        | [] => .error .indexError
        | b :: _ => .ok b
      else .error .runtimeError

/-- `ComputeDirectEffectsInDAGsMultivariateRegression.process` (multivariate_regression.py:20-71) -/
def effectProcess (D : Source ι ρ) (c : List ι) (g : CGraph ι ρ) : Except PyErr (Option (List (CResult ι ρ))) :=
  match c with
  | x :: y :: _ =>
    if y ∉ g.nodes then .error .keyError
    else if x ∉ g.nodes then .error .keyError
    else if g.undirectedEdgeExists x y then
      match g.edgeValue x y with
      | .error e => .error e
      | .ok _ => .ok none
    else
      match g.edgeValue x y with
      | .error e => .error e
      | .ok m =>
        match g.parentsOfNode y with
        | .error e => .error e
        | .ok ps =>
          match coefficient D (ps.filter (fun p => decide (p ≠ x))) x y with
          | .error e => .error e
          | .ok b =>
            match m with
            | none => .error .typeError
            | some m => .ok (some [⟨x, y, .updateEdgeDirected, some { m with effect := some b }⟩])
  | _ => .error .indexError

/-- `ComputeDirectEffectsInDAGsMultivariateRegression` with its default generator, which hands out one pair at a time
(multivariate_regression.py:14-18; causy/generators.py:60-94) -/
def effectStep (D : Source ι ρ) : Step ι (Info ι ρ) where
  name := "ComputeDirectEffectsInDAGsMultivariateRegression"
  chunked := false
  needsUnapplied := false
  applySync := false
  gen := fun g =>
    match Graph.pairsWithEdges false 100 g with
    | .error e => .error e
    | .ok ys => .ok (ys.map (fun y _ => [y]))
  process := fun c g _ => effectProcess D c g

end Effects
end Verif
