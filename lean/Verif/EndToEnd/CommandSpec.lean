import Verif.EndToEnd.CommandModel
import Verif.EndToEnd.WholeSpec
import Verif.Cli.Spec

/-!
# Specification vocabulary for `causy execute` on data from linear equations
-/

namespace Verif
namespace EndToEnd
open Data CI PC Cli Linear Sample Graph
variable {ι : Type}

/-- the numerical functions do what they should, and the orders are orders of the sets -/
structure Machine.Valid [DecidableEq ι] (M : Machine ι) : Prop where
  normal : NormalLike M.Φ
  solver : Effects.LeastSquaresIn some M.lstsq
  ord : M.ord.Valid
  choice : M.choice.Valid
  oc : M.oc.Valid
  o : M.o.Valid
  threshold : M.threshold < 1

/-- the result lists an edge from `a` to `b` -/
def Lists (r : Report ι (Info ι (Option ℝ))) (a b : ι) : Prop := ∃ e ∈ r.edges, e.u = a ∧ e.v = b

/-- What the result file should say about data from linear equations: each pair once; the adjacencies of the DAG; in one
direction only where all DAGs with the same adjacencies and v-structures have this direction; the type of each edge says
whether it is listed in one or in both directions; and each edge in one direction only, into a variable without undirected
edges, carries the coefficient of the equation. -/
structure Reports [DecidableEq ι] (edges : List (SEdge ι ℝ)) (r : Report ι (Info ι (Option ℝ))) : Prop where
  once : (r.edges.map (fun e => (e.u, e.v))).Nodup
  adjacent : ∀ a b, Lists r a b ∨ Lists r b a ↔ Dag.Adj (HasEdge edges) a b
  arrows : ∀ a b, Lists r a b ∧ ¬ Lists r b a ↔ Dag.Compelled (HasEdge edges) a b
  undirected : ∀ e ∈ r.edges, e.etype = .undirected ↔ Lists r e.v e.u
  directed : ∀ e ∈ r.edges, e.etype = .directed ↔ ¬ Lists r e.v e.u
  effects : ∀ e ∈ r.edges, ¬ Lists r e.v e.u → (∀ c, ¬ (Lists r c e.v ∧ Lists r e.v c)) →
    e.metadata.effect = some (some (weight edges e.u e.v))

/-- the command shows what it saves, names the algorithm, has the columns as nodes, and writes to the given file -/
structure Delivers [LinearOrder ι] (o : Options) (algorithm : String) (nodes : Nodes ι ℝ)
    (r : Report ι (Info ι (Option ℝ))) : Prop where
  shown : r.printed = r.edges
  algorithm : r.algorithm = .name algorithm
  nodes : r.nodes = nodes.map Prod.fst
  file : ∀ f, r.saved = some f ↔ o.outputFile = some f ∧ f ≠ ""

end EndToEnd
end Verif
