import Verif.Cli.Model
import Verif.Data.Spec

/-!
# Notions used in the statements about `causy execute`
-/

namespace Verif
namespace Cli
open Data
variable {ι R δ : Type}

/-- the name under which a step is recorded -/
def stageName : Stage ι δ → String
  | .seq p => p.name
  | .par s _ => s.name

/-- the step is not a logic step -/
def isPlain : Stage ι δ → Prop
  | .seq (.plain _) => True
  | .seq _ => False
  | .par _ _ => True

/-- an option that is left out, or empty -/
def absent (o : Option String) : Prop := o = none ∨ o = some ""

/-- the model the options select, and how the result refers to it -/
inductive Selects (env : Env ι R δ) (o : Options) : ModelClass ι R δ → Ref → Prop
  | file (path c) (h : o.pipeline = some path) (hne : path ≠ "") (hl : env.load path = .ok c) : Selects env o c (.file path)
  | name (a c) (h : absent o.pipeline) (ha : o.algorithm = some a) (hne : a ≠ "") (hl : env.available a = some c) :
      Selects env o c (.name a)

/-- these are the variables and values in the data file: the columns of its rows, in the order of the first row, or the
columns it consists of, in alphabetical order -/
inductive Holds [LinearOrder ι] : Json ι R → Nodes ι R → Prop
  | rows (first rows nodes) (hk : nodes.map Prod.fst = Dict.keys first)
      (hc : ∀ k col, (k, col) ∈ nodes → IsColumn (first :: rows) k col) : Holds (.list (first :: rows)) nodes
  | columns (d nodes) (hk : (nodes.map Prod.fst).Pairwise (· < ·)) (hc : ∀ k col, (k, col) ∈ nodes ↔ d.get? k = some col) :
      Holds (.dict d) nodes

/-- every pair of different nodes is connected by an undirected edge with these metadata, and nothing is recorded -/
def Complete [DecidableEq ι] (m0 : δ) (N : List ι) (g : Graph ι δ) : Prop :=
  g.nodes = N ∧ (∀ a b, g.edgeExists a b = true ↔ a ∈ N ∧ b ∈ N ∧ a ≠ b) ∧
  (∀ a ∈ N, ∀ b ∈ N, a ≠ b → g.getEdge a b = .ok ⟨a, b, .undirected, m0, false⟩) ∧
  ∀ a b act, g.retrieveEdgeHistory a b act = []

end Cli
end Verif
