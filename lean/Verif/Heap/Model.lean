import Verif.Heap.Map

/-!
# Running a pipeline with shared metadata dictionaries

Elsewhere the metadata of an edge is a value.  In python it is a dictionary object that several places may refer to:
`update_edge` stores one object under both directions (causy/graph.py:888-904), the very object of the `TestResult` which
`add_edge_history` and the action history keep (causy/graph_model.py:345-349, 358-359).  Two steps change such an object
where it is, before proposing anything (causy/common_pipeline_steps/calculation.py:50,
causy/causal_effect_estimation/multivariate_regression.py:64).

Here a graph holds references, and a heap says what each dictionary contains.  The edits of the graph are those of
`Verif/Graph` and `Verif/Action` with references as metadata: they pass references on.

* Constructing a pydantic model (`Edge`, `TestResult`) copies the given dictionary (pydantic-core 2.20, dict validator), so
  every new edge and every result refers to a new dictionary.  Assigning `edge.metadata = d` does not copy (no
  `validate_assignment`), nor does putting a `TestResult` into an `ActionHistoryStep` (`revalidate_instances` is "never").
* Hard-deleted edges are restored by constructing a new `Edge`; here the old reference is used again.  The properties are
  about runs that propose no restores.
* The worker pool is not modelled here: workers get pickled copies.
-/

namespace Verif
namespace Heap
open Graph
variable {ι δ : Type} [DecidableEq ι]

/-- a dictionary object -/
abbrev Ref := Nat

/-- the graph and the contents of the dictionary objects; the objects from `next` on do not exist yet -/
structure HState (ι δ : Type) where
  graph : Graph ι Ref
  cells : Ref → δ
  next : Ref

/-- what is seen when the graph is read -/
def HState.deref (σ : HState ι δ) : Graph ι δ := σ.graph.map σ.cells

/-- run an edit of the graph -/
def onG {α : Type} (m : PyM (Graph ι Ref) α) : PyM (HState ι δ) α := fun σ =>
  ((m σ.graph).1, { σ with graph := (m σ.graph).2 })

/-- change the content of one dictionary -/
def poke (c : Ref → δ) (r : Ref) (m : δ) : Ref → δ := fun s => if s = r then m else c s

/-- a new dictionary -/
def HState.alloc (σ : HState ι δ) (m : δ) : HState ι δ := { σ with cells := poke σ.cells σ.next m, next := σ.next + 1 }

/-- `TestResult(..., data=m)` -/
def newResult (r : TestResult ι δ) (σ : HState ι δ) : TestResult ι Ref × HState ι δ :=
  match r.data with
  | none => (⟨r.u, r.v, r.action, none⟩, σ)
  | some m => (⟨r.u, r.v, r.action, some σ.next⟩, σ.alloc m)

/-- `edge_value["correlation"] = correlation` (calculation.py:50) and `edge_data["direct_effect"] = ...`
(multivariate_regression.py:64): the stored dictionary of `(u, v)` becomes what is then proposed -/
def writeBack (r : TestResult ι δ) (σ : HState ι δ) : HState ι δ :=
  match r.data, σ.graph.edges.get2 r.u r.v with
  | some m, some e => { σ with cells := poke σ.cells e.metadata m }
  | _, _ => σ

/-- the results of one call of `process`, in order -/
def newResults (inPlace : Bool) : List (TestResult ι δ) → HState ι δ → List (TestResult ι Ref) × HState ι δ
  | [], σ => ([], σ)
  | r :: rs, σ =>
    let p := newResult r (if inPlace then writeBack r σ else σ)
    let q := newResults inPlace rs p.2
    (p.1 :: q.1, q.2)

/-- a pipeline step, and whether its `process` changes the stored dictionary of the edge it proposes to update -/
structure HStep (ι δ : Type) where
  step : Step ι δ
  inPlace : Bool

namespace HStep

/-- one call of `process` -/
def eval (s : HStep ι δ) (c : List ι) (loc : Option (Results ι Ref)) :
    PyM (HState ι δ) (Option (List (TestResult ι Ref))) := fun σ =>
  match s.step.process c σ.deref (loc.map (mapResults σ.cells)) with
  | .error e => (.error e, σ)
  | .ok none => (.ok none, σ)
  | .ok (some rs) => (.ok (some (newResults s.inPlace rs σ).1), (newResults s.inPlace rs σ).2)

/-- see `Step.evalChunk` -/
def evalChunk (s : HStep ι δ) : List (List ι) → PyM (HState ι δ) (Results ι Ref)
  | [] => pure []
  | c :: cs => do
    let r ← s.eval c none
    let rs ← s.evalChunk cs
    pure (r :: rs)

/-- see `Step.runChunk` -/
def runChunk (s : HStep ι δ) (dry : Bool) (y : Yield ι) :
    PyM (HState ι δ) (List (TestResult ι Ref) × List (TestResult ι Ref)) :=
  match y with
  | .single _ => PyM.raise .keyError
  | .chunk cs => do
    let rs ← s.evalChunk cs
    onG (takeAction dry rs)

/-- see `Step.gather` -/
def gather {α : Type} (body : α → PyM (HState ι δ) (List (TestResult ι Ref) × List (TestResult ι Ref))) :
    List α → PyM (HState ι δ) (List (TestResult ι Ref) × List (TestResult ι Ref))
  | [] => pure ([], [])
  | a :: as => do
    let p ← body a
    let q ← gather body as
    pure (p.1 ++ q.1, p.2 ++ q.2)

/-- see `Step.runChunked` -/
def runChunked (s : HStep ι δ) (dry : Bool) (ts : List (Graph ι δ → List (Yield ι))) :
    PyM (HState ι δ) (List (TestResult ι Ref) × List (TestResult ι Ref)) :=
  gather (fun t => do
    let σ ← PyM.get
    gather (s.runChunk dry) (t σ.deref)) ts

/-- see `Step.evalOne` -/
def evalOne (s : HStep ι δ) (y : Yield ι) (loc : Results ι Ref) : PyM (HState ι δ) (Option (List (TestResult ι Ref))) :=
  match y with
  | .chunk _ => PyM.raise .typeError
  | .single c => s.eval c (if s.step.needsUnapplied then some loc else none)

/-- see `Step.evalSeq` -/
def evalSeq (s : HStep ι δ) : List (Yield ι) → Results ι Ref → PyM (HState ι δ) (Results ι Ref)
  | [], loc => pure loc
  | y :: ys, loc => do
    let r ← s.evalOne y loc
    s.evalSeq ys (loc ++ [r])

/-- see `Step.runSync` -/
def runSync (s : HStep ι δ) (dry : Bool) (y : Yield ι) :
    PyM (HState ι δ) (List (TestResult ι Ref) × List (TestResult ι Ref)) := do
  let r ← s.evalOne y []
  onG (takeAction dry [r])

/-- see `Step.execute` -/
def execute (s : HStep ι δ) (dry : Bool) : PyM (HState ι δ) (List (TestResult ι Ref) × List (TestResult ι Ref)) := fun σ =>
  match s.step.gen σ.deref with
  | .error e => (.error e, σ)
  | .ok ts =>
    if s.step.chunked then s.runChunked dry ts σ
    else if s.step.applySync then gather (s.runSync dry) (Graph.forceOn σ.deref ts) σ
    else (do
      let rs ← s.evalSeq (Graph.forceOn σ.deref ts) []
      onG (takeAction dry rs)) σ

end HStep

/-- a configured step, see `PStep` -/
inductive HPStep (ι δ : Type)
  | plain (s : HStep ι δ)
  | loop (name : String) (steps : List (HStep ι δ))
      (exit : Graph ι δ → Option (List (TestResult ι δ)) → Nat → Except PyErr Bool)
  | together (name : String) (steps : List (HStep ι δ))

/-- the step of the model without sharing -/
def HPStep.forget : HPStep ι δ → PStep ι δ
  | .plain s => .plain s.step
  | .loop n ss exit => .loop n (ss.map HStep.step) exit
  | .together n ss => .together n (ss.map HStep.step)

/-- see `Verif.runInner` -/
def runInner (dry : Bool) : List (HStep ι δ) → PyM (HState ι δ) (List (StepRec ι Ref) × List (TestResult ι Ref))
  | [] => pure ([], [])
  | s :: ss => do
    let p ← s.execute dry
    let q ← runInner dry ss
    pure (⟨s.step.name, p.1, p.2⟩ :: q.1, p.1 ++ q.2)

/-- see `Verif.loopGo` -/
def loopGo (steps : List (HStep ι δ))
    (exit : Graph ι δ → Option (List (TestResult ι δ)) → Nat → Except PyErr Bool) :
    Nat → Nat → Option (List (TestResult ι Ref)) → PyM (HState ι δ) (List (StepRec ι Ref))
  | 0, _, _ => PyM.raise .recursionError
  | fuel + 1, n, taken => fun σ =>
    match exit σ.deref (mapResult σ.cells taken) n with
    | .error e => (.error e, σ)
    | .ok true => (.ok [], σ)
    | .ok false =>
      (do
        let p ← runInner false steps
        let more ← loopGo steps exit fuel (n + 1) (some p.2)
        pure (p.1 ++ more)) σ

/-- see `Verif.runTogether` -/
def runTogether (steps : List (HStep ι δ)) : PyM (HState ι δ) (List (StepRec ι Ref)) := do
  let p ← runInner true steps
  let _ ← onG (takeAction false (p.2.map (fun a => some [a])))
  pure p.1

/-- graph, dictionaries and action history -/
structure HModel (ι δ : Type) where
  state : HState ι δ
  history : List (HistRec ι Ref)

/-- run inside the model -/
def onS {α : Type} (m : PyM (HState ι δ) α) : PyM (HModel ι δ) α := fun s =>
  ((m s.state).1, { s with state := (m s.state).2 })

/-- `action_history.append(r)` -/
def appendHistory (r : HistRec ι Ref) : PyM (HModel ι δ) Unit := PyM.mod (fun s => { s with history := s.history ++ [r] })

/-- see `PStep.run` -/
def HPStep.run (fuel : Nat) : HPStep ι δ → PyM (HModel ι δ) Unit
  | .loop name steps exit => do
    let rs ← onS (loopGo steps exit fuel 0 none)
    appendHistory (.logic name rs)
  | .together name steps => do
    let rs ← onS (runTogether steps)
    appendHistory (.logic name rs)
  | .plain s => do
    let p ← onS (s.execute false)
    appendHistory (.plain ⟨s.step.name, p.1, p.2⟩)
    onS (onG Graph.purge)

/-- see `runPipeline` -/
def run (fuel : Nat) (ps : List (HPStep ι δ)) : PyM (HModel ι δ) Unit := PyM.forEach ps (HPStep.run fuel)

/-- `Edge(...)` twice in `add_edge` (causy/graph.py:702-707): two new dictionaries with the given content -/
def addEdge (m : δ) (u v : ι) : PyM (HState ι δ) Unit := fun σ =>
  match Graph.addEdge u v σ.next .undirected σ.graph with
  | (.error e, g) => (.error e, { σ with graph := g })
  | (.ok _, g) =>
    onG (do
      modE v u (fun e => { e with metadata := σ.next + 1 })
      modR u v (fun e => { e with metadata := σ.next + 1 }))
      { graph := g, cells := poke (poke σ.cells σ.next m) (σ.next + 1) m, next := σ.next + 2 }

/-- see `Graph.createAllPossibleEdges` -/
def createAllPossibleEdges (m0 : δ) : PyM (HState ι δ) Unit := do
  let σ ← PyM.get
  PyM.forEach σ.graph.nodes (fun u =>
    PyM.forEach σ.graph.nodes (fun v => if u = v then pure () else addEdge m0 u v))

/-- nodes without edges and no dictionaries -/
def start (nodes : List ι) (c : Ref → δ) : HState ι δ := ⟨{ (Graph.empty : Graph ι Ref) with nodes := nodes }, c, 0⟩

/-- the model before the first step: `create_graph_from_data` and `create_all_possible_edges` have run.  `c` is what the memory
contains before. -/
def before (nodes : List ι) (m0 : δ) (c : Ref → δ) : HModel ι δ := ⟨(createAllPossibleEdges m0 (start nodes c)).2, []⟩

end Heap

/-- replace the data in a history entry -/
def StepRec.map {ι α β : Type} (f : α → β) (r : StepRec ι α) : StepRec ι β :=
  ⟨r.name, r.actions.map (TestResult.map f), r.proposed.map (TestResult.map f)⟩

/-- replace the data in a history entry -/
def HistRec.map {ι α β : Type} (f : α → β) : HistRec ι α → HistRec ι β
  | .plain r => .plain (r.map f)
  | .logic n rs => .logic n (rs.map (StepRec.map f))

end Verif
