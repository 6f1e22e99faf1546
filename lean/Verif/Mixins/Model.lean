import Verif.Basic.Py
import Mathlib.Data.List.Dedup
import Mathlib.Data.List.Perm.Basic

/-!
# The query methods of the graph class

`graph_model_factory` rewrites the base classes of the one class `Graph` (causy/graph_model.py:548-560): the access mixins of
the algorithm's edge types and extensions are added to the base classes that are already there, and the tuple is rebuilt from
a `set`.  All graphs of the process share this class, so every call acts on every graph.

Python computes the method resolution order of a class by the C3 linearisation; an assignment to `__bases__` for which
there is none raises `TypeError` and leaves the class as it was.
-/

namespace Verif
namespace Mixins
variable {γ : Type} [DecidableEq γ]

/-- python's method resolution: `c` may come next if it is in no tail -/
def mayComeNext (ls : List (List γ)) (c : γ) : Bool := ls.all (fun l => decide (c ∉ l.tail))

/-- the first head of a list that may come next -/
def next (ls : List (List γ)) : Option γ := (ls.filterMap List.head?).find? (mayComeNext ls)

def dropHead (c : γ) (l : List γ) : List γ := if l.head? = some c then l.tail else l

/-- The merge of the C3 linearisation; `none` is python's `TypeError`, "Cannot create a consistent method resolution order".
The first argument bounds the recursion; `linearise` passes the number of entries. -/
def merge : Nat → List (List γ) → Option (List γ)
  | 0, ls => if ls.all List.isEmpty then some [] else none
  | n + 1, ls =>
    if ls.all List.isEmpty then some []
    else match next ls with
      | none => none
      | some c => (merge n (ls.map (dropHead c))).map (c :: ·)

/-- The classes of a process, as far as the factory sees them. -/
structure World (γ : Type) where
  /-- the resolution order of a class, the class itself first -/
  order : γ → List γ
  /-- the names a class defines itself -/
  defines : γ → String → Bool
  /-- `inspect.isabstract` -/
  isAbstract : γ → Bool

/-- the method resolution order that python computes for a class with the given base classes, without the class itself -/
def linearise (w : World γ) (bases : List γ) : Option (List γ) :=
  let ls := bases.map w.order ++ [bases]
  merge (ls.map List.length).sum ls

/-- An algorithm, as far as the factory looks at it here: the `GraphAccessMixin` classes of its edge types and of its
extensions (causy/models.py:77-78). -/
structure Alg (γ : Type) where
  edgeTypes : List γ
  extensions : Option (List γ) := none

/-- the tuple `bases` of the factory (graph_model.py:548-558).  `edge_types` cannot be `None`. -/
def Alg.mixins (w : World γ) (a : Alg γ) : List γ :=
  a.edgeTypes.filter (fun c => !w.isAbstract c) ++ (a.extensions.getD []).filter (fun c => !w.isAbstract c)

/-- One call of `graph_model_factory` on the base classes of `Graph` (graph_model.py:560).  `new` is the tuple made from the
set: its order depends on the addresses of the classes, so any order is possible. -/
inductive Call (w : World γ) (a : Alg γ) (bases : List γ) : Except PyErr (List γ) → Prop
  | done (new mro : List γ) (hp : new.Perm (bases ++ a.mixins w).dedup) (hm : linearise w new = some mro) :
      Call w a bases (.ok new)
  | conflict (new : List γ) (hp : new.Perm (bases ++ a.mixins w).dedup) (hm : linearise w new = none) :
      Call w a bases (.error .typeError)

/-- The base classes of `Graph` after a history of factory calls; a call that raises leaves them alone. -/
inductive After (w : World γ) (start : List γ) : List (Alg γ) → List γ → Prop
  | nil : After w start [] start
  | done {hist bases a new} (h : After w start hist bases) (hc : Call w a bases (.ok new)) :
      After w start (hist ++ [a]) new
  | failed {hist bases a e} (h : After w start hist bases) (hc : Call w a bases (.error e)) : After w start hist bases

/-- Looking a method up on an object of a class with these base classes: the class that supplies it, or `AttributeError`. -/
def lookup (w : World γ) (bases : List γ) (name : String) : Except PyErr γ :=
  match linearise w bases with
  | none => .error .typeError
  | some mro =>
    match mro.find? (fun c => w.defines c name) with
    | none => .error .attributeError
    | some c => .ok c

/-! ## The classes of the package -/

/-- `BaseModel`, `GraphBaseAccessMixin` (graph.py:65), `BaseGraphInterface` (interfaces.py:219), the mixins of `DirectedEdge`
(edge_types.py:28), of `EdgeTypeInterface` (interfaces.py:81; also that of undirected and bidirected edges) and of
`ExtensionInterface` (interfaces.py:513; also that of `GraphUIExtension`), `InducingPathExtension` (fci.py:8), `ABC`,
`object`. -/
inductive Cls | baseModel | base | interface | directed | edgeType | extension | inducing | abc | obj
  deriving DecidableEq, Repr

/-- names of the queries; `BaseModel` has none of them -/
def Cls.defines : Cls → String → Bool
  | .base, n => n ∈ ["directed_edge_is_soft_deleted", "parents_of_node", "edge_exists", "directed_edge_exists", "node_by_id",
      "edge_value", "edge_type", "undirected_edge_exists", "get_siblings", "retrieve_edge_history", "directed_path_exists",
      "edge_of_type_exists", "descendants_of_node", "are_nodes_d_separated_dag", "are_nodes_d_separated_cpdag",
      "all_paths_on_underlying_undirected_graph", "retrieve_edges"]
  | .directed, n => n ∈ ["only_directed_edge_exists", "_resolve_node_references", "directed_paths"]
  | .inducing, n => n ∈ ["inducing_path_exists"]
  | .interface, n => n ∈ ["retrieve_edge_history", "add_edge_history", "add_edge", "remove_edge", "remove_directed_edge",
      "update_edge", "update_directed_edge", "add_node", "edge_value", "undirected_edge_exists", "directed_edge_exists",
      "edge_exists", "restore_edge", "restore_directed_edge"]
  | _, _ => false

def Cls.order : Cls → List Cls
  | .obj => [.obj]
  | .abc => [.abc, .obj]
  | .baseModel => [.baseModel, .obj]
  | .base => [.base, .obj]
  | .directed => [.directed, .obj]
  | .inducing => [.inducing, .obj]
  | c => [c, .abc, .obj]

/-- The only class with abstract methods is `BaseGraphInterface`, which is not a mixin of an edge type. -/
def shipped : World Cls := ⟨Cls.order, Cls.defines, fun c => c == .interface⟩

/-- `class Graph(BaseModel, GraphBaseAccessMixin)` (graph.py:582) -/
def graphBases : List Cls := [.baseModel, .base]

/-- `class GraphManager(GraphBaseAccessMixin, BaseGraphInterface)` (graph.py:591); nothing changes these -/
def managerBases : List Cls := [.base, .interface]

/-- PC, PCClassic, PCStable and ParallelPC: `PC_EDGE_TYPES` and the UI extension (algorithms/pc.py:61-85) -/
def pcAlg : Alg Cls := ⟨[.directed, .edgeType], some [.extension]⟩

end Mixins
end Verif
