import Verif.Basic.Py

/-!
# Model of edge equality (causy/interfaces.py:151-204, causy/graph.py:24-58, causy/serialization.py:104-113)
-/

namespace Verif
namespace Serial

/-- a node of a result: the values are excluded from the file, so they are `None` after loading (interfaces.py:42-62) -/
structure RNode where
  name : String
  id : String
  deriving DecidableEq

/-- an edge type as stored in an edge: pydantic fields `name` and `IS_DIRECTED` (interfaces.py:68-78) -/
structure EType where
  name : String
  directed : Bool
  deriving DecidableEq

/-- an edge of a result (interfaces.py:165-177); `μ` is the type of metadata dictionaries -/
structure REdge (μ : Type) where
  u : RNode
  v : RNode
  type : EType
  metadata : μ

/-- `EdgeTypeInterface.__eq__` (interfaces.py:155-156) -/
def EType.eq (a b : EType) : Bool := a.name == b.name

/-- `EdgeInterface.is_connection_between_same_nodes` (interfaces.py:197-203) -/
def REdge.sameNodes {μ : Type} (a b : REdge μ) : Bool :=
  (a.u == b.u && a.v == b.v) || (a.u == b.v && a.v == b.u)

/-- `EdgeInterface.__eq__` (interfaces.py:179-195) for two edges -/
def REdge.eq {μ : Type} (a b : REdge μ) : Bool :=
  if !(a.type.eq b.type) then false
  else if a.type.directed then a.u == b.u && a.v == b.v
  else a.sameNodes b

/-- an edge of a live graph (graph.py:39-58) -/
structure LEdge (μ : Type) where
  u : RNode
  v : RNode
  type : EType
  metadata : μ
  deleted : Bool

/-- the `__eq__` that `@dataclass` generates for `Edge` and that replaces the inherited one (graph.py:39): the tuples of all
fields are compared -/
def LEdge.eq {μ : Type} [BEq μ] (a b : LEdge μ) : Bool :=
  a.u == b.u && a.v == b.v && a.type.eq b.type && a.metadata == b.metadata && a.deleted == b.deleted

/-- the edge types of `EDGE_TYPES` (edge_types.py:17-26, 132-135, 152-156, 179-183) -/
def standardTypes : List EType := [⟨"DIRECTED", true⟩, ⟨"UNDIRECTED", false⟩, ⟨"BIDIRECTED", false⟩]

end Serial
end Verif
