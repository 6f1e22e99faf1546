import Verif.Serial.Steps
import Verif.Cli.Model

/-!
# Ejecting an algorithm to a file and executing the file

`causy eject` (causy/cli.py:30-43, causy/serialization.py:21-26), the choice `EJECT` of `causy workspace pipeline add`
(causy/workspaces/cli.py:153-170), `graph_model_factory` (causy/graph_model.py:529-571) with the resolution of variables
(causy/variables.py:175-232), `load_algorithm_from_specification` (causy/serialization.py:29-48).

Simplifications: those of `Verif/Serial/Steps.lean`; extensions are left out; the text of the file is its content (the JSON
and YAML printers and parsers are left out); a variable is its name and its value.  `serialize_algorithm` changes the name of
the algorithm object for the rest of the process, which ends right after.
-/

namespace Verif
namespace Serial
namespace Eject

/-- an algorithm (models.py:73-81): the fields of `AlgObj` and the declared variables with their values -/
structure Algo extends AlgObj where
  vars : List (String × PVal)

/-- `model_dump` of it -/
structure AlgoDict extends AlgDict where
  vars : List (String × PVal)

def Algo.dump (a : Algo) : AlgoDict := ⟨a.toAlgObj.dump, a.vars⟩

/-- `resolve_variables(variables, {})` (variables.py:175-189): of several variables with one name the last counts -/
def value (vars : List (String × PVal)) (n : String) : Option PVal := assoc n vars.reverse

/-- one attribute in `resolve_variable_to_object` (variables.py:199-204); a member of an enumeration has a `value` and is
left as it is -/
def resolveVal (vars : List (String × PVal)) : PVal → Except PyErr PVal
  | .ref n => match value vars n with
    | some v => .ok v
    | none => .error .valueError
  | v => .ok v

/-- the comparison settings of a generator (variables.py:205-211) -/
def resolveSettings (vars : List (String × PVal)) : Option (PVal × PVal) → Except PyErr (Option (PVal × PVal))
  | none => pure none
  | some (lo, hi) => do
    let lo ← resolveVal vars lo
    let hi ← resolveVal vars hi
    pure (some (lo, hi))

/-- the fields of a generator (variables.py:199-211) -/
def resolveAttrs (vars : List (String × PVal)) (a : GenAttrs) : Except PyErr GenAttrs := do
  let s ← resolveSettings vars a.settings
  let c ← resolveVal vars a.chunked
  let n ← resolveVal vars a.everyNth
  let h ← resolveVal vars a.shuffle
  pure ⟨s, c, n, h⟩

/-- the own field of a generator class (generators.py:63) -/
def resolveClass (vars : List (String × PVal)) : GenClass → Except PyErr GenClass
  | .pairsWithEdges k => do
    let k ← resolveVal vars k
    pure (.pairsWithEdges k)
  | c => pure c

/-- a generator; a dictionary inside it is not an object and is left as it is -/
def resolveGen (vars : List (String × PVal)) : Gen → Except PyErr Gen
  | .leaf c a => do
    let c ← resolveClass vars c
    let a ← resolveAttrs vars a
    pure (.leaf c a)
  | .nest c a g => do
    let c ← resolveClass vars c
    let a ← resolveAttrs vars a
    let g ← resolveGen vars g
    pure (.nest c a g)
  | .raw c a d => do
    let c ← resolveClass vars c
    let a ← resolveAttrs vars a
    pure (.raw c a d)

def resolveField (vars : List (String × PVal)) : SVal → Except PyErr SVal
  | .val v => do
    let v ← resolveVal vars v
    pure (.val v)
  | .gen g => do
    let g ← resolveGen vars g
    pure (.gen g)

/-- the attributes of a step, in order -/
def resolveFields (vars : List (String × PVal)) : List (String × SVal) → Except PyErr (List (String × SVal))
  | [] => pure []
  | (f, v) :: l => do
    let v ← resolveField vars v
    let l ← resolveFields vars l
    pure ((f, v) :: l)

mutual
/-- one turn of `resolve_variables_to_algorithm_for_pipeline_steps` (variables.py:221-230): the attributes of the step, then
the steps it contains -/
def resolveStep (vars : List (String × PVal)) : Step → Except PyErr Step
  | .simple cls values => do
    let values ← resolveFields vars values
    pure (.simple cls values)
  | .logic cls steps exit display => do
    let display ← resolveVal vars display
    let steps ← resolveSteps vars steps
    pure (.logic cls steps exit display)

def resolveSteps (vars : List (String × PVal)) : List Step → Except PyErr (List Step)
  | [] => pure []
  | s :: l => do
    let s ← resolveStep vars s
    let l ← resolveSteps vars l
    pure (s :: l)
end

/-- a model: the algorithm it runs and the copy kept by the factory (graph_model.py:539, 562-569) -/
structure Model where
  original : Algo
  algorithm : Algo

/-- the steps after the factory: they are only visited if there are variables (graph_model.py:540-548) -/
def resolveAll (a : Algo) : Except PyErr (List Step) :=
  if a.vars = [] then .ok a.steps else resolveSteps a.vars a.steps

/-- `graph_model_factory(algorithm)` and an instance of the class (graph_model.py:529-571) -/
def factory (a : Algo) : Except PyErr Model := do
  let steps ← resolveAll a
  let _ ← collectMixins a.edgeTypes
  pure ⟨a, { a with steps := steps }⟩

/-- `load_algorithm_from_specification` (serialization.py:29-48); the variables come back as they were -/
def load (classes : String → Option StepClass) (d : AlgoDict) : Except PyErr Algo :=
  match loadAlg classes d.toAlgDict with
  | .error e => .error e
  | .ok a => .ok ⟨a, d.vars⟩

/-- what the commands find: the step classes, the models in `AVAILABLE_ALGORITHMS`, and the pipeline files -/
structure World where
  classes : String → Option StepClass
  available : String → Option Model
  files : String → Option AlgoDict

/-- `open(path, "w")` and writing -/
def World.write (w : World) (path : String) (d : AlgoDict) : World :=
  { w with files := fun p => if p = path then some d else w.files p }

/-- `load_json` (serialization.py:97-100) -/
def World.read (w : World) (path : String) : Except PyErr AlgoDict :=
  match w.files path with
  | none => .error .fileNotFound
  | some d => .ok d

/-- `causy eject algorithm output_file` (cli.py:30-43): dumps the algorithm of the model -/
def eject (w : World) (name out : String) : Except PyErr World :=
  match w.available name with
  | none => .error .keyError
  | some m => .ok (w.write out { m.algorithm with name := name }.dump)

/-- the choice `EJECT` in a workspace (workspaces/cli.py:153-170): dumps the copy kept by the factory -/
def workspaceEject (w : World) (name out : String) : Except PyErr World :=
  match w.available name with
  | none => .error .keyError
  | some m => .ok (w.write out m.original.dump)

/-- `graph_model_factory(load_algorithm_from_specification(load_json(path)))()` (cli.py:59-61).  A workspace does the same
with the YAML file of a pipeline, with the values of the experiment for the variables (workspaces/cli.py:270-282,
serialization.py:51-77). -/
def loadModel (w : World) (path : String) : Except PyErr Model := do
  let d ← w.read path
  let a ← load w.classes d
  factory a

variable {ι R δ : Type}

/-- the surroundings of `causy execute`: `run` says what a list of steps does with loaded data -/
def World.cli (w : World) (run : List Step → Cli.ModelClass ι R δ) (document : Except PyErr (Data.Json ι R)) : Cli.Env ι R δ where
  load := fun path => match loadModel w path with
    | .ok m => .ok (run m.algorithm.steps)
    | .error e => .error e
  available := fun name => (w.available name).map (fun m => run m.algorithm.steps)
  document := document

end Eject
end Serial
end Verif
