import Verif.EndToEnd.Spec
import Verif.Effects.Spec

/-!
# Specification vocabulary for the complete algorithms, including the direct effects
-/

namespace Verif
namespace Linear
open Graph Sample CI
variable {ι : Type} [DecidableEq ι] {n : ℕ}

/-- the sum of the coefficients that the user gave for edges from `a` to `b` -/
noncomputable def weight (edges : List (SEdge ι ℝ)) (a b : ι) : ℝ :=
  ((edges.filter (fun e => e.src = a ∧ e.dst = b)).map (·.value)).sum

/-- What a complete algorithm should make of data from linear equations: the adjacencies of the DAG; an arrow where all DAGs
with the same adjacencies and v-structures have it; and, on each arrow whose target has no undirected edge, the coefficient of
the equation as direct effect. -/
structure Learned (edges : List (SEdge ι ℝ)) (g : CGraph ι (Option ℝ)) : Prop where
  adjacent : ∀ a b, g.edgeExists a b = true ↔ Dag.Adj (HasEdge edges) a b
  arrows : ∀ a b, g.Arrow a b ↔ Dag.Compelled (HasEdge edges) a b
  effects : ∀ a b, g.Arrow a b → (∀ c, ¬ g.Line c b) →
    ∃ m, g.edgeValue a b = .ok (some m) ∧ m.effect = some (some (weight edges a b))

/-- the values of the nodes are the columns, and the solver of the last step solves least squares problems without NaN -/
structure EffectData (D : Effects.Source ι (Option ℝ)) (col : ι → Fin n → ℝ) (N : List ι) : Prop where
  values : ∀ v ∈ N, D.values v = some (List.ofFn fun i => some (col v i))
  solver : Effects.LeastSquaresIn some D.lstsq

end Linear
end Verif
