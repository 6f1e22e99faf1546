import Verif.Paths.Model
import Verif.Dag.Spec

/-!
# Specification vocabulary for the path queries
-/

namespace Verif
namespace Graph
variable {ι δ : Type} [DecidableEq ι]

/-- `a → b` without the opposite direction -/
def OneWay (g : Graph ι δ) (a b : ι) : Prop :=
  g.directedEdgeExists a b = true ∧ g.directedEdgeExists b a = false

/-- `a → b`, possibly together with the opposite direction -/
def Live (g : Graph ι δ) (a b : ι) : Prop := g.directedEdgeExists a b = true

/-- a simple path of the underlying undirected graph from `u` to `v` -/
def SimplePath (g : Graph ι δ) (u v : ι) (p : List ι) : Prop :=
  p.head? = some u ∧ p.getLast? = some v ∧ p.Nodup ∧ p.IsChain (fun a b => g.edgeExists a b = true)

/-- The graph stores exactly the DAG `E`: its live edges are those of `E`, all of type DIRECTED. -/
structure StoresDag (g : Graph ι δ) (E : ι → ι → Prop) : Prop where
  acyclic : Dag.Acyclic E
  live : ∀ a b, g.directedEdgeExists a b = true ↔ E a b
  typed : ∀ a b, E a b → g.edgeOfTypeExists a b .directed = true

/-- no path between the two nodes has two colliders -/
def AtMostOneCollider (E : ι → ι → Prop) (u v : ι) : Prop :=
  ∀ p, Dag.IsPath E u v p → ∀ a b c a' b' c', [a, b, c] <:+: p → [a', b', c'] <:+: p →
    Dag.Collider E a b c → Dag.Collider E a' b' c' → b = b'

/-- `a → b ← c`, both edges of type DIRECTED -/
def ColliderAt (g : Graph ι δ) (a b c : ι) : Prop :=
  g.edgeOfTypeExists a b .directed = true ∧ g.edgeOfTypeExists c b .directed = true

/-- `b` is certainly not a collider: it has an outgoing edge, or the triple is unshielded and no collider -/
def DefiniteNoncolliderAt (g : Graph ι δ) (a b c : ι) : Prop :=
  g.edgeOfTypeExists b a .directed = true ∨ g.edgeOfTypeExists b c .directed = true ∨
    (g.edgeExists a c = false ∧ ¬ ColliderAt g a b c)

/-- every inner node is a collider or a definite non-collider -/
def DefiniteStatus (g : Graph ι δ) (p : List ι) : Prop :=
  ∀ a b c, [a, b, c] <:+: p → ColliderAt g a b c ∨ DefiniteNoncolliderAt g a b c

/-- blocked by a definite non-collider in `Z` or a collider without a descendant in `Z` -/
def DefinitelyBlocked (g : Graph ι δ) (Z p : List ι) : Prop :=
  ∃ a b c, [a, b, c] <:+: p ∧
    ((ColliderAt g a b c ∧ ∀ d, Relation.ReflTransGen (OneWay g) b d → d ∉ Z) ∨
     (DefiniteNoncolliderAt g a b c ∧ b ∈ Z))

/-- no stored edge is soft deleted -/
def Purged (g : Graph ι δ) : Prop := ∀ u v e, g.getEdge u v = .ok e → e.deleted = false

/-- there is an entry in the edge table, live or soft-deleted -/
def Stored (g : Graph ι δ) (a b : ι) : Prop := ∃ e, g.getEdge a b = .ok e

/-- a non-empty sequence of live edges leading from `u` to `v` -/
def IsDirPath (g : Graph ι δ) (v : ι) : ι → List (ι × ι) → Prop
  | _, [] => False
  | u, [e] => e = (u, v) ∧ Live g u v
  | u, e :: rest => e.1 = u ∧ Live g u e.2 ∧ IsDirPath g v e.2 rest

end Graph
end Verif
