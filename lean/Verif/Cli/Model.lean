import Verif.Par.Model
import Verif.Data.Model
import Verif.CI.Lemmas3

/-!
# The command `causy execute` (causy/cli.py:46-102, causy/graph_utils.py:42-53)

The text that is printed is reduced to the edges it shows; log messages are omitted.  Steps with `parallel=True` run in the
worker pool, so the command is a relation.
-/

namespace Verif
namespace Cli
open Graph Data
variable {ι R δ : Type}

/-- A model class: its steps.  They read the values of the nodes, so they are a function of the loaded data. -/
abbrev ModelClass (ι R δ : Type) := Nodes ι R → List (Stage ι δ)

/-- what the command finds outside -/
structure Env (ι R δ : Type) where
  /-- `graph_model_factory(load_algorithm_from_specification(load_json(path)))` (cli.py:59-61) -/
  load : String → Except PyErr (ModelClass ι R δ)
  /-- `AVAILABLE_ALGORITHMS` (causal_discovery/constraint/algorithms/__init__.py:3-6) -/
  available : String → Option (ModelClass ι R δ)
  /-- the document in the data file, or the exception of opening and parsing it -/
  document : Except PyErr (Json ι R)

/-- the command line options; an option that is left out is `None` -/
structure Options where
  pipeline : Option String
  algorithm : Option String
  outputFile : Option String

/-- `if option:` -- neither `None` nor empty -/
def given (o : Option String) : Option String := o.filter (fun s => s ≠ "")

/-- `AlgorithmReference` (models.py:58-61), with the two types used here -/
inductive Ref
  | file (path : String)
  | name (algorithm : String)
  deriving DecidableEq

/-- the choice of the model (cli.py:57-75) -/
def choose (env : Env ι R δ) (o : Options) : Except PyErr (ModelClass ι R δ × Ref) :=
  match given o.pipeline with
  | some path =>
    match env.load path with
    | .ok m => .ok (m, .file path)
    | .error e => .error e
  | none =>
    match given o.algorithm with
    | some name =>
      match env.available name with
      | some m => .ok (m, .name name)
      | none => .error .keyError
    | none => .error .valueError

/-- `model.create_graph_from_data(JSONDataLoader(data_file))` (cli.py:77-79) -/
def loadData [LinearOrder ι] (env : Env ι R δ) : Except PyErr (Nodes ι R) :=
  match env.document with
  | .error e => .error e
  | .ok j =>
    match jsonLoad j with
    | .error e => .error e
    | .ok items => createGraph (.loader items)

/-- the model before the pipeline runs (cli.py:77-82): the nodes, and then all possible edges with metadata `{}` -/
def startModel [DecidableEq ι] (m0 : δ) (nodes : Nodes ι R) : Except PyErr Unit × GModel ι δ :=
  let r := createAllPossibleEdges m0 (nodesOnly (nodes.map Prod.fst))
  (r.1, ⟨r.2, []⟩)

/-- `graph_utils.retrieve_edges` (graph_utils.py:42-53): all stored pairs -/
def storedPairs [DecidableEq ι] (g : Graph ι δ) : List (ι × ι) := g.storedList.map (fun t => (t.1, t.2.1))

/-- the loop that prints (cli.py:86-90): `model.graph.nodes[...]` and `model.graph.edges[...][...]` raise `KeyError` for an
unknown id -/
def printEdges [DecidableEq ι] (g : Graph ι δ) : List (ι × ι) → Except PyErr (List (Edge ι δ))
  | [] => .ok []
  | (u, v) :: l =>
    if u ∈ g.nodes ∧ v ∈ g.nodes then
      match g.edges.get2 u v with
      | none => .error .keyError
      | some e =>
        match printEdges g l with
        | .error x => .error x
        | .ok es => .ok (e :: es)
    else .error .keyError

/-- the printed edges and the fields of `Result` (models.py:97-107); `saved` is the file it is written to, if any -/
structure Report (ι δ : Type) where
  printed : List (Edge ι δ)
  algorithm : Ref
  nodes : List ι
  edges : List (Edge ι δ)
  history : List (HistRec ι δ)
  saved : Option String

/-- the end of the command (cli.py:86-102) -/
def report [DecidableEq ι] (o : Options) (ref : Ref) (m : GModel ι δ) : Except PyErr (Report ι δ) :=
  match printEdges m.graph (storedPairs m.graph) with
  | .error e => .error e
  | .ok printed =>
    match m.graph.retrieveEdges with
    | .error e => .error e
    | .ok edges => .ok ⟨printed, ref, m.graph.nodes, edges, m.history, given o.outputFile⟩

/-- `execute` (cli.py:46-102) -/
inductive Executes [LinearOrder ι] (m0 : δ) (fuel : Nat) (env : Env ι R δ) (o : Options) : Except PyErr (Report ι δ) → Prop
  | noModel (e) (h : choose env o = .error e) : Executes m0 fuel env o (.error e)
  | noData (c e) (h : choose env o = .ok c) (hd : loadData env = .error e) : Executes m0 fuel env o (.error e)
  | noEdges (c nodes e m) (h : choose env o = .ok c) (hd : loadData env = .ok nodes)
      (hs : startModel m0 nodes = (.error e, m)) : Executes m0 fuel env o (.error e)
  | stepFailed (c nodes m e m') (h : choose env o = .ok c) (hd : loadData env = .ok nodes)
      (hs : startModel m0 nodes = (.ok (), m)) (hr : Stages.Run fuel (c.1 nodes) m (.error e, m')) :
      Executes m0 fuel env o (.error e)
  | done (c nodes m m') (h : choose env o = .ok c) (hd : loadData env = .ok nodes)
      (hs : startModel m0 nodes = (.ok (), m)) (hr : Stages.Run fuel (c.1 nodes) m (.ok (), m')) :
      Executes m0 fuel env o (report o c.2 m')

end Cli
end Verif
