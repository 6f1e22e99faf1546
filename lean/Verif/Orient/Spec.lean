import Verif.Orient.Model
import Verif.Paths.Spec

/-!
# Specification vocabulary for the orientation phase

A pair of nodes is connected one-way (`Arrow`), both ways (`Line`) or at all (`Adj`).  Meek's rules in their textbook
form say when the line between `a` and `b` has to become the arrow `a → b`.
-/

namespace Verif
namespace Graph
variable {ι δ : Type} [DecidableEq ι]

/-- `a → b`: an edge from `a` to `b` and none back -/
def Arrow (g : Graph ι δ) (a b : ι) : Prop := g.directedEdgeExists a b = true ∧ g.directedEdgeExists b a = false

/-- `a – b`: edges both ways -/
def Line (g : Graph ι δ) (a b : ι) : Prop := g.directedEdgeExists a b = true ∧ g.directedEdgeExists b a = true

/-- an edge in at least one direction -/
def Adj (g : Graph ι δ) (a b : ι) : Prop := g.directedEdgeExists a b = true ∨ g.directedEdgeExists b a = true

/-- `c → a – b` with `c` and `b` not adjacent: the line becomes `a → b` -/
def Meek1 (g : Graph ι δ) (a b : ι) : Prop := g.Line a b ∧ ∃ c, g.Arrow c a ∧ c ≠ b ∧ ¬ g.Adj c b

/-- `a → c → b` and `a – b`: the line becomes `a → b` -/
def Meek2 (g : Graph ι δ) (a b : ι) : Prop := g.Line a b ∧ ∃ c, g.Arrow a c ∧ g.Arrow c b

/-- `a – c → b`, `a – d → b`, `a – b`, with `c` and `d` different and not adjacent: the line becomes `a → b` -/
def Meek3 (g : Graph ι δ) (a b : ι) : Prop :=
  g.Line a b ∧ ∃ c d, c ≠ d ∧ ¬ g.Adj c d ∧ g.Line a c ∧ g.Line a d ∧ g.Arrow c b ∧ g.Arrow d b

/-- `a – d → c → b`, `a – c`, `a – b`, with `d` and `b` not adjacent: the line becomes `a → b` -/
def Meek4 (g : Graph ι δ) (a b : ι) : Prop :=
  g.Line a b ∧ ∃ c d, d ≠ b ∧ ¬ g.Adj d b ∧ g.Line a c ∧ g.Line a d ∧ g.Arrow d c ∧ g.Arrow c b

/-- every node has a (possibly empty) dictionary of outgoing edges, unless it is the only node -/
def Rows (g : Graph ι δ) : Prop := ∀ x ∈ g.nodes, ∀ y ∈ g.nodes, x ≠ y → g.edges.has x = true

/-- every undirected removal recorded for two nodes carries a data dictionary -/
def RemovalsHaveData (g : Graph ι δ) : Prop :=
  ∀ x ∈ g.nodes, ∀ y ∈ g.nodes, x ≠ y → ∀ r ∈ g.retrieveEdgeHistory x y .removeEdgeUndirected, r.data.isSome = true

/-- the number of ordered pairs of nodes connected by a live edge -/
def liveCount (g : Graph ι δ) : Nat :=
  ((g.nodes ×ˢ g.nodes).filter (fun p => g.directedEdgeExists p.1 p.2)).length

end Graph

namespace Orient
open CI
variable {ι ρ : Type} [DecidableEq ι]

/-- `z` is in a separating set recorded for the pair -/
def SepRecorded (g : CGraph ι ρ) (x y z : ι) : Prop :=
  ∃ r ∈ g.retrieveEdgeHistory x y .removeEdgeUndirected, ∃ d S, r.data = some d ∧ d.sep = some S ∧ z ∈ S

/-- some action on the ordered pair is already waiting to be applied -/
def Waiting (un : Results ι (Info ι ρ)) (u v : ι) : Prop := ∃ rs, some rs ∈ un ∧ ∃ r ∈ rs, r.u = u ∧ r.v = v

/-- every live edge is labelled by what is stored: undirected if the opposite direction is there too, directed if not -/
def TypesMatch (g : CGraph ι ρ) : Prop := ∀ a b e, g.getEdge a b = .ok e → e.deleted = false →
  e.etype = if g.directedEdgeExists b a then .undirected else .directed

end Orient
end Verif
