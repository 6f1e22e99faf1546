import Verif.Orient.Spec

/-!
# Specification vocabulary for the FCI collider rule
-/

namespace Verif.Fci
open Graph CI Orient
variable {ι ρ : Type} [DecidableEq ι]

/-- `z` is in no separating set recorded for the two nodes, looked up under the node that was added first -/
def Unseparated (g : CGraph ι ρ) (a b z : ι) : Prop :=
  ([a, b].Sublist g.nodes ∧ ¬ SepRecorded g a b z) ∨ ([b, a].Sublist g.nodes ∧ ¬ SepRecorded g b a z)

/-- the end of the edge `a → z` at `z` is an arrowhead: some `b` that is not connected with `a` by a line also has an edge to
`z`, and `z` did not separate the two -/
def ArrowheadAt (g : CGraph ι ρ) (a z : ι) : Prop :=
  ∃ b, ¬ g.Line a b ∧ g.directedEdgeExists a z = true ∧ g.directedEdgeExists b z = true ∧ Unseparated g a b z


/-- an inducing path as the documentation of `inducing_path_exists` describes it: a directed path from `u` to `v` on which
every node between is a collider, that is, the next node on the path also has an edge to it -/
def InducingPath {δ : Type} (g : Graph ι δ) (u v : ι) (p : List (ι × ι)) : Prop :=
  IsDirPath g v u p ∧ ∀ e e', [e, e'] <:+: p → Live g e'.2 e'.1

end Verif.Fci
