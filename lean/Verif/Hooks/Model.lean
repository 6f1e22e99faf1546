import Verif.Pipeline.Model

/-!
# Hooks (causy/graph_model.py:241-291, 293-430; causy/interfaces.py:84-150, 517-532)

The pipeline of `Verif/Pipeline/Model` once more, with the hooks it leaves out: the methods of the edge types which
`_take_action` calls around its edits, and the update hooks of the algorithm.  Hooks are arbitrary code: they may read and
change the graph, raise, and change the rest of the world, which is a value of an arbitrary type `ω`.

Simplifications: as in `Verif/Pipeline/Model`; a hook cannot change the history of the run or the algorithm.
-/

namespace Verif
variable {ι δ ω α : Type} [DecidableEq ι]

/-- the hooks of `EdgeTypeInterface` which are called somewhere (causy/interfaces.py:84-150); `pre_edge_add_hook` and
`post_edge_add_hook` never are -/
inductive EdgeHook
  | preRemove | postRemove | preUpdate | postUpdate | preTypeChange | postTypeChange
  deriving DecidableEq, Repr

/-- the code supplied from outside -/
structure Hooks (ι δ ω : Type) where
  /-- the hooks of the edge types -/
  edge : EdgeHook → EType → TestResult ι δ → PyM (Graph ι δ × ω) Unit
  /-- `pre_graph_update_hooks` (causy/models.py:80); `none` is `None` -/
  pre : List (Option (List (TestResult ι δ)) → PyM (Graph ι δ × ω) (Option (List (TestResult ι δ)))) := []
  /-- `post_graph_update_hooks` (causy/models.py:81) -/
  post : List (List (TestResult ι δ) → PyM (Graph ι δ × ω) Unit) := []

/-- run a computation on the first part of the state -/
def PyM.left {σ : Type} (m : PyM σ α) : PyM (σ × ω) α := fun s => ((m s.1).1, ((m s.1).2, s.2))

namespace Hooks
open Graph
variable (H : Hooks ι δ ω)

/-- `_execute_hook` (causy/graph_model.py:277-291): every exception is caught, also that of `get_edge` -/
def call (h : EdgeHook) (r : TestResult ι δ) : PyM (Graph ι δ × ω) Unit := fun s =>
  match s.1.getEdge r.u r.v with
  | .error _ => (.ok (), s)
  | .ok e => (.ok (), (H.edge h e.etype r s).2)

/-- `_execute_pre_graph_update_hooks` (causy/graph_model.py:241-257) -/
def runPre : List (Option (List (TestResult ι δ)) → PyM (Graph ι δ × ω) (Option (List (TestResult ι δ)))) →
    Option (List (TestResult ι δ)) → PyM (Graph ι δ × ω) (Option (List (TestResult ι δ)))
  | [], rs => pure rs
  | h :: hs, rs => do
    let rs' ← h rs
    runPre hs rs'

/-- `_execute_post_graph_update_hooks` (causy/graph_model.py:259-275) -/
def runPost : List (List (TestResult ι δ) → PyM (Graph ι δ × ω) Unit) → List (TestResult ι δ) → PyM (Graph ι δ × ω) Unit
  | [], _ => pure ()
  | h :: hs, rs => do
    h rs
    runPost hs rs

/-- `Graph.applyOne` with the hooks of the edge types (causy/graph_model.py:327-424) -/
def applyOne (r : TestResult ι δ) : PyM (Graph ι δ × ω) Bool := do
  let s ← PyM.get
  match r.action with
  | .removeEdgeUndirected =>
    if !s.1.undirectedEdgeExists r.u r.v then pure false
    else
      H.call .preRemove r
      (removeEdge r.u r.v true).left
      (addEdgeHistory r.u r.v r).left
      (addEdgeHistory r.v r.u r).left
      H.call .postRemove r
      pure true
  | .updateEdge =>
    if !s.1.edgeExists r.u r.v then pure false
    else
      H.call .preUpdate r
      (updateEdge r.u r.v r.data none).left
      (addEdgeHistory r.u r.v r).left
      (addEdgeHistory r.v r.u r).left
      H.call .postUpdate r
      pure true
  | .updateEdgeDirected =>
    if !s.1.directedEdgeExists r.u r.v then pure false
    else
      H.call .preUpdate r
      (updateDirectedEdge r.u r.v r.data none).left
      (addEdgeHistory r.u r.v r).left
      H.call .postUpdate r
      pure true
  | .doNothing => pure false
  | .removeEdgeDirected =>
    if !s.1.directedEdgeExists r.u r.v && !s.1.edgeExists r.u r.v then pure false
    else
      H.call .preRemove r
      (removeDirectedEdge r.u r.v true).left
      let s ← PyM.get
      PyM.when (s.1.edgeExists r.v r.u) (updateDirectedEdge r.v r.u none (some .directed)).left
      (addEdgeHistory r.u r.v r).left
      H.call .postRemove r
      pure true
  | .updateEdgeType =>
    if !s.1.edgeExists r.u r.v then pure false
    else
      H.call .preTypeChange r
      PyM.raise .attributeError
  | .updateEdgeTypeDirected =>
    if !s.1.directedEdgeExists r.u r.v then pure false
    else
      H.call .preTypeChange r
      PyM.raise .attributeError
  | .restoreEdge =>
    if s.1.edgeExists r.u r.v then pure false
    else
      (restoreEdge r.u r.v).left
      (addEdgeHistory r.u r.v r).left
      (addEdgeHistory r.v r.u r).left
      pure true
  | .restoreEdgeDirected =>
    if s.1.directedEdgeExists r.u r.v then pure false
    else
      (restoreDirectedEdge r.u r.v).left
      (addEdgeHistory r.u r.v r).left
      pure true

/-- `Graph.takeItems` with hooks (causy/graph_model.py:319-424) -/
def takeItems (dry : Bool) : List (TestResult ι δ) → PyM (Graph ι δ × ω) (List (TestResult ι δ))
  | [] => pure []
  | r :: rs =>
    if dry then do
      let rest ← takeItems dry rs
      pure (r :: rest)
    else do
      let b ← H.applyOne r
      let rest ← takeItems dry rs
      pure (if b then r :: rest else rest)

/-- `_take_action` with hooks (causy/graph_model.py:293-430).  If the last pre-update hook returns `None`,
`all_actions.extend(None)` raises. -/
def takeAction (dry : Bool) :
    Results ι δ → PyM (Graph ι δ × ω) (List (TestResult ι δ) × List (TestResult ι δ))
  | [] => pure ([], [])
  | none :: rest => takeAction dry rest
  | some items :: rest => do
    let items' ← runPre H.pre (some items)
    match items' with
    | none => PyM.raise .typeError
    | some items' =>
      let t ← H.takeItems dry items'
      runPost H.post t
      let (ts, as) ← takeAction dry rest
      pure (t ++ ts, items' ++ as)

/-- an exception or a value -/
def lift {σ : Type} : Except PyErr α → PyM σ α
  | .ok a => pure a
  | .error e => PyM.raise e

/-- `Step.runChunk` with hooks (causy/graph_model.py:479-487) -/
def runChunk (s : Step ι δ) (dry : Bool) (y : Yield ι) :
    PyM (Graph ι δ × ω) (List (TestResult ι δ) × List (TestResult ι δ)) :=
  match y with
  | .single _ => PyM.raise .keyError
  | .chunk cs => do
    let g ← PyM.get
    let rs ← lift (s.evalChunk g.1 cs)
    H.takeAction dry rs

/-- `Step.gather` on the larger state -/
def gather {β : Type} (body : β → PyM (Graph ι δ × ω) (List (TestResult ι δ) × List (TestResult ι δ))) :
    List β → PyM (Graph ι δ × ω) (List (TestResult ι δ) × List (TestResult ι δ))
  | [] => pure ([], [])
  | a :: as => do
    let (t, p) ← body a
    let (ts, ps) ← gather body as
    pure (t ++ ts, p ++ ps)

/-- `Step.runChunked` with hooks (causy/graph_model.py:477-487) -/
def runChunked (s : Step ι δ) (dry : Bool) (ts : List (Graph ι δ → List (Yield ι))) :
    PyM (Graph ι δ × ω) (List (TestResult ι δ) × List (TestResult ι δ)) :=
  gather (fun t => do
    let g ← PyM.get
    gather (H.runChunk s dry) (t g.1)) ts

/-- `Step.runSync` with hooks (causy/graph_model.py:506-520) -/
def runSync (s : Step ι δ) (dry : Bool) (y : Yield ι) :
    PyM (Graph ι δ × ω) (List (TestResult ι δ) × List (TestResult ι δ)) := do
  let g ← PyM.get
  let r ← lift (s.evalOne g.1 y [])
  H.takeAction dry [r]

/-- `Step.execute` with hooks (causy/graph_model.py:432-449, 476-526) -/
def execute (s : Step ι δ) (dry : Bool) : PyM (Graph ι δ × ω) (List (TestResult ι δ) × List (TestResult ι δ)) := do
  let g ← PyM.get
  let ts ← lift (s.gen g.1)
  if s.chunked then H.runChunked s dry ts
  else if s.applySync then gather (H.runSync s dry) (Graph.forceOn g.1 ts)
  else do
    let rs ← lift (s.evalSeq g.1 (Graph.forceOn g.1 ts) [])
    H.takeAction dry rs

/-- `runInner` with hooks (causy/common_pipeline_steps/logic.py:41-57 and 84-102) -/
def runInner (dry : Bool) : List (Step ι δ) → PyM (Graph ι δ × ω) (List (StepRec ι δ) × List (TestResult ι δ))
  | [] => pure ([], [])
  | s :: ss => do
    let (t, p) ← H.execute s dry
    let (rs, ts) ← runInner dry ss
    pure (⟨s.name, t, p⟩ :: rs, t ++ ts)

/-- `loopGo` with hooks (causy/common_pipeline_steps/logic.py:30-58) -/
def loopGo (steps : List (Step ι δ))
    (exit : Graph ι δ → Option (List (TestResult ι δ)) → Nat → Except PyErr Bool) :
    Nat → Nat → Option (List (TestResult ι δ)) → PyM (Graph ι δ × ω) (List (StepRec ι δ))
  | 0, _, _ => PyM.raise .recursionError
  | fuel + 1, n, taken => do
    let g ← PyM.get
    let b ← lift (exit g.1 taken n)
    if b then pure []
    else do
      let (rs, ts) ← H.runInner false steps
      let more ← loopGo steps exit fuel (n + 1) (some ts)
      pure (rs ++ more)

/-- `runTogether` with hooks (causy/common_pipeline_steps/logic.py:72-110): the actions pass through `_take_action` twice -/
def runTogether (steps : List (Step ι δ)) : PyM (Graph ι δ × ω) (List (StepRec ι δ)) := do
  let (rs, actions) ← H.runInner true steps
  let _ ← H.takeAction false (actions.map (fun a => some [a]))
  pure rs

/-- run a computation on the graph of the model and the world -/
def onGraph (m : PyM (Graph ι δ × ω) α) : PyM (GModel ι δ × ω) α := fun s =>
  let x := m (s.1.graph, s.2)
  (x.1, ({ s.1 with graph := x.2.1 }, x.2.2))

/-- `PStep.run` with hooks (causy/graph_model.py:207-228) -/
def run (fuel : Nat) : PStep ι δ → PyM (GModel ι δ × ω) Unit
  | .loop name steps exit => do
    let rs ← onGraph (H.loopGo steps exit fuel 0 none)
    (appendHistory (.logic name rs)).left
  | .together name steps => do
    let rs ← onGraph (H.runTogether steps)
    (appendHistory (.logic name rs)).left
  | .plain s => do
    let (t, p) ← onGraph (H.execute s false)
    (appendHistory (.plain ⟨s.name, t, p⟩)).left
    onGraph Graph.purge.left

/-- `execute_pipeline_steps` of an algorithm with hooks (causy/graph_model.py:197-228) -/
def runPipeline (fuel : Nat) (ps : List (PStep ι δ)) : PyM (GModel ι δ × ω) Unit := PyM.forEach ps (H.run fuel)

end Hooks
end Verif
