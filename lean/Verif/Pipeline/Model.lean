import Verif.Gen.Model
import Verif.Action.Model

/-!
# Executing pipeline steps (causy/graph_model.py:197-228, 432-526; causy/common_pipeline_steps/logic.py)

A pipeline step is its generator, its flags and its `process` function.  Time stamps, log messages and progress
events are omitted.  The worker pool (`parallel=True`, causy/graph_model.py:451-475) is a relation, see
`Verif/Par`; this file models the in-process modes.
-/

namespace Verif
variable {ι δ : Type} [DecidableEq ι]

/-- what `process` returned for a list of combinations: `none` is `None`; a single result is a one-element list -/
abbrev Results (ι δ : Type) := List (Option (List (TestResult ι δ)))

/-- `PipelineStepInterface` (causy/interfaces.py:344-426). -/
structure Step (ι δ : Type) where
  name : String
  /-- `generator.chunked` -/
  chunked : Bool
  needsUnapplied : Bool
  applySync : Bool
  /-- `generator.generate` -/
  gen : Graph ι δ → Except PyErr (List (Graph ι δ → List (Yield ι)))
  /-- `process(nodes, graph, unapplied_actions)`; `none` for an omitted third argument -/
  process : List ι → Graph ι δ → Option (Results ι δ) → Except PyErr (Option (List (TestResult ι δ)))

namespace Step

/-- `[unpack_run(i) for i in [[test_fn, [*c], graph] for c in chunk]]` (causy/graph_model.py:479-482) -/
def evalChunk (s : Step ι δ) (g : Graph ι δ) : List (List ι) → Except PyErr (Results ι δ)
  | [] => .ok []
  | c :: cs =>
    match s.process c g none with
    | .error e => .error e
    | .ok r =>
      match s.evalChunk g cs with
      | .error e => .error e
      | .ok rs => .ok (r :: rs)

/-- the body of the chunked loop (causy/graph_model.py:479-487).  A chunked consumer given a bare combination would
unpack each node id into its characters; this is modelled as the `KeyError` the lookup then raises. -/
def runChunk (s : Step ι δ) (dry : Bool) (y : Yield ι) :
    PyM (Graph ι δ) (List (TestResult ι δ) × List (TestResult ι δ)) := fun g =>
  match y with
  | .single _ => (.error .keyError, g)
  | .chunk cs =>
    match s.evalChunk g cs with
    | .error e => (.error e, g)
    | .ok rs => Graph.takeAction dry rs g

/-- run a body for each element and concatenate `actions_taken` and `all_actions` -/
def gather {α : Type} (body : α → PyM (Graph ι δ) (List (TestResult ι δ) × List (TestResult ι δ))) :
    List α → PyM (Graph ι δ) (List (TestResult ι δ) × List (TestResult ι δ))
  | [] => pure ([], [])
  | a :: as => do
    let (t, p) ← body a
    let (ts, ps) ← gather body as
    pure (t ++ ts, p ++ ps)

/-- the chunked mode (causy/graph_model.py:477-487): the generator advances between the chunks and sees the changes
made so far -/
def runChunked (s : Step ι δ) (dry : Bool) (ts : List (Graph ι δ → List (Yield ι))) :
    PyM (Graph ι δ) (List (TestResult ι δ) × List (TestResult ι δ)) :=
  gather (fun t => do
    let g ← PyM.get
    gather (s.runChunk dry) (t g)) ts

/-- one call of `process` in the unchunked mode (causy/graph_model.py:507-512).  A chunk given to an unchunked
consumer becomes a list of lists of ids, and `graph.nodes[[...]]` raises `TypeError`. -/
def evalOne (s : Step ι δ) (g : Graph ι δ) (y : Yield ι) (loc : Results ι δ) :
    Except PyErr (Option (List (TestResult ι δ))) :=
  match y with
  | .chunk _ => .error .typeError
  | .single c => s.process c g (if s.needsUnapplied then some loc else none)

/-- the loop `for i in iterator` without `apply_synchronous` (causy/graph_model.py:506-512): `loc` is
`local_results`, which is passed to `process` if the step needs unapplied actions -/
def evalSeq (s : Step ι δ) (g : Graph ι δ) : List (Yield ι) → Results ι δ → Except PyErr (Results ι δ)
  | [], loc => .ok loc
  | y :: ys, loc =>
    match s.evalOne g y loc with
    | .error e => .error e
    | .ok r => s.evalSeq g ys (loc ++ [r])

/-- the body of the loop with `apply_synchronous` (causy/graph_model.py:506-520); `local_results` is empty at the
start of every iteration -/
def runSync (s : Step ι δ) (dry : Bool) (y : Yield ι) :
    PyM (Graph ι δ) (List (TestResult ι δ) × List (TestResult ι δ)) := fun g =>
  match s.evalOne g y [] with
  | .error e => (.error e, g)
  | .ok r => Graph.takeAction dry [r] g

/-- `execute_pipeline_step` with `parallel=False` (causy/graph_model.py:432-449, 476-526).  Returns
`(actions_taken, all_actions)`. -/
def execute (s : Step ι δ) (dry : Bool) : PyM (Graph ι δ) (List (TestResult ι δ) × List (TestResult ι δ)) := fun g =>
  match s.gen g with
  | .error e => (.error e, g)
  | .ok ts =>
    if s.chunked then s.runChunked dry ts g
    else
      let items := Graph.forceOn g ts
      if s.applySync then gather (s.runSync dry) items g
      else match s.evalSeq g items [] with
        | .error e => (.error e, g)
        | .ok rs => Graph.takeAction dry rs g

end Step

/-- `ActionHistoryStep` (causy/models.py:87-94) of a plain step, without the duration -/
structure StepRec (ι δ : Type) where
  name : String
  actions : List (TestResult ι δ)
  proposed : List (TestResult ι δ)
  deriving DecidableEq

/-- an entry of `action_history`: a plain step, or a logic step with its inner steps -/
inductive HistRec (ι δ : Type)
  | plain (r : StepRec ι δ)
  | logic (name : String) (steps : List (StepRec ι δ))
  deriving DecidableEq

/-- the name of a history entry -/
def HistRec.name : HistRec ι δ → String
  | .plain r => r.name
  | .logic n _ => n

/-- A configured pipeline step: plain, `Loop` or `ApplyActionsTogether`.  Logic steps inside logic steps are not
modelled (`execute_pipeline_step` would raise `AttributeError` on them). -/
inductive PStep (ι δ : Type)
  | plain (s : Step ι δ)
  | loop (name : String) (steps : List (Step ι δ))
      (exit : Graph ι δ → Option (List (TestResult ι δ)) → Nat → Except PyErr Bool)
  | together (name : String) (steps : List (Step ι δ))

/-- the configured name -/
def PStep.name : PStep ι δ → String
  | .plain s => s.name
  | .loop n _ _ => n
  | .together n _ => n

/-- `ExitOnNoActions.check` (causy/common_pipeline_steps/exit_conditions.py:5-18); `len(None)` is a `TypeError` -/
def exitOnNoActions (_ : Graph ι δ) (taken : Option (List (TestResult ι δ))) (iteration : Nat) : Except PyErr Bool :=
  if iteration > 0 then
    match taken with
    | none => .error .typeError
    | some l => .ok l.isEmpty
  else .ok false

/-- the `for pipeline_step in self.pipeline_steps` loop of `Loop` (`dry = false`) and `ApplyActionsTogether`
(`dry = true`) (causy/common_pipeline_steps/logic.py:41-57 and 84-102): the records of the steps and the concatenated
taken actions -/
def runInner (dry : Bool) : List (Step ι δ) → PyM (Graph ι δ) (List (StepRec ι δ) × List (TestResult ι δ))
  | [] => pure ([], [])
  | s :: ss => do
    let (t, p) ← s.execute dry
    let (rs, ts) ← runInner dry ss
    pure (⟨s.name, t, p⟩ :: rs, t ++ ts)

/-- the `while` loop of `Loop.execute` (causy/common_pipeline_steps/logic.py:30-58).  `fuel` bounds the number of
evaluations of the exit condition; running out is reported as `recursionError`. -/
def loopGo (steps : List (Step ι δ))
    (exit : Graph ι δ → Option (List (TestResult ι δ)) → Nat → Except PyErr Bool) :
    Nat → Nat → Option (List (TestResult ι δ)) → PyM (Graph ι δ) (List (StepRec ι δ))
  | 0, _, _ => PyM.raise .recursionError
  | fuel + 1, n, taken => fun g =>
    match exit g taken n with
    | .error e => (.error e, g)
    | .ok true => (.ok [], g)
    | .ok false =>
      match runInner false steps g with
      | (.error e, g') => (.error e, g')
      | (.ok (rs, ts), g') =>
        match loopGo steps exit fuel (n + 1) (some ts) g' with
        | (.error e, g'') => (.error e, g'')
        | (.ok more, g'') => (.ok (rs ++ more), g'')

/-- `ApplyActionsTogether.execute` (causy/common_pipeline_steps/logic.py:72-110) -/
def runTogether (steps : List (Step ι δ)) : PyM (Graph ι δ) (List (StepRec ι δ)) := do
  let (rs, actions) ← runInner true steps
  let _ ← Graph.takeAction false (actions.map (fun a => some [a]))
  pure rs

/-- the parts of `AbstractGraphModel` that change during a run: `graph.graph` and its `action_history` -/
structure GModel (ι δ : Type) where
  graph : Graph ι δ
  history : List (HistRec ι δ)

/-- run a graph computation inside the model -/
def onGraph {α : Type} (m : PyM (Graph ι δ) α) : PyM (GModel ι δ) α := fun s =>
  ((m s.graph).1, { s with graph := (m s.graph).2 })

/-- `action_history.append(r)` -/
def appendHistory (r : HistRec ι δ) : PyM (GModel ι δ) Unit := PyM.mod (fun s => { s with history := s.history ++ [r] })

/-- one iteration of `execute_pipeline_step_with_progress` (causy/graph_model.py:207-228).  After a logic step the code
continues with the next step without purging. -/
def PStep.run (fuel : Nat) : PStep ι δ → PyM (GModel ι δ) Unit
  | .loop name steps exit => do
    let rs ← onGraph (loopGo steps exit fuel 0 none)
    appendHistory (.logic name rs)
  | .together name steps => do
    let rs ← onGraph (runTogether steps)
    appendHistory (.logic name rs)
  | .plain s => do
    let (t, p) ← onGraph (s.execute false)
    appendHistory (.plain ⟨s.name, t, p⟩)
    onGraph Graph.purge

/-- `execute_pipeline_steps` (causy/graph_model.py:197-228).  `all(...)` consumes the whole generator because every
yielded progress event is a non-empty dictionary. -/
def runPipeline (fuel : Nat) (ps : List (PStep ι δ)) : PyM (GModel ι δ) Unit := PyM.forEach ps (PStep.run fuel)

end Verif
