import Verif.Workspace.Text
import Verif.Vars.Model
import Verif.Data.Model

/-!
# Model of the workspace commands (causy/workspaces/cli.py, causy/workspaces/models.py)

The directory of a workspace holds `workspace.yml` and result files.  Writing the workspace file and reading it back gives the
same workspace: the YAML libraries are not modelled, nor are the name and the author of the workspace.  Pipelines given inline
in the workspace file are left out; all commands write references.  Every command runs in a process of its own.

What lies outside (pipeline files, python modules, data files, the run of a pipeline, digests, the clock) is the parameter `Env`.
It may change from one command to the next.
-/

namespace Verif
namespace Workspace
open Vars (Val VarType Variable Obj Algorithm)

/-! ### Result files -/

/-- `f"{experiment_name}_{timestamp}.json"` (cli.py:369) -/
def resultName (experiment : List Char) (timestamp : Int) : List Char :=
  experiment ++ '_' :: (showInt timestamp ++ ".json".toList)

/-- `int(segments[-1].split(".")[0])` (cli.py:358) -/
def fileVersion (file : List Char) : Option Int :=
  pyInt ((splitAtChar '.' ((splitAtChar '_' file).getLastD [])).headD [])

/-- `"_".join(segments[:-1])` (cli.py:359) -/
def fileExperiment (file : List Char) : List Char := joinWith '_' (splitAtChar '_' file).dropLast

/-- the condition on a file name (cli.py:356) -/
def mayBeVersion (experiment file : List Char) : Bool :=
  startsWith (experiment ++ ['_']) file && endsWith ".json".toList file

/-- the loop of `_load_experiment_versions` (cli.py:352-363) -/
def scanVersions (experiment : List Char) : List (List Char) → Except PyErr (List Int)
  | [] => .ok []
  | file :: rest =>
    if mayBeVersion experiment file then
      match fileVersion file with
      | none => .error .valueError
      | some t =>
        match scanVersions experiment rest with
        | .error e => .error e
        | .ok vs => if fileExperiment file ≠ experiment then .ok vs else .ok (t :: vs)
    else scanVersions experiment rest

/-- `_load_experiment_versions` (cli.py:351-364); the argument `listing` is what `os.listdir()` returns, in any order -/
def loadVersions (experiment : List Char) (listing : List (List Char)) : Except PyErr (List Int) :=
  match scanVersions experiment listing with
  | .error e => .error e
  | .ok vs => .ok (vs.insertionSort (fun a b => b ≤ a))

/-- the files of the directory; `C` is the type of file contents -/
abbrev Files (C : Type) := Dict (List Char) C

/-- the file that `_load_latest_experiment_result` reads (cli.py:317-331), after its check of the workspace -/
def latestFile {C : Type} (experiment : List Char) (files : Files C) : Except PyErr C :=
  match loadVersions experiment files.keys with
  | .error e => .error e
  | .ok [] => .error .valueError
  | .ok (v :: _) =>
    match files.get? (resultName experiment v) with
    | none => .error .fileNotFound
    | some c => .ok c

/-- `_save_experiment_result` (cli.py:367-370) -/
def saveFile {C : Type} (experiment : List Char) (timestamp : Int) (content : C) (files : Files C) : Files C :=
  files.set (resultName experiment timestamp) content

/-- `_clear_experiment` (cli.py:459-468), without the count -/
def clearFiles {C : Type} (experiment : List Char) (files : Files C) : Except PyErr (Files C) :=
  match loadVersions experiment files.keys with
  | .error e => .error e
  | .ok vs => .ok (vs.foldl (fun d v => d.del (resultName experiment v)) files)

/-! ### The workspace -/

/-- `AlgorithmReferenceType` (models.py:62-65) -/
inductive RefType
  | file
  | name
  | pythonModule
  deriving DecidableEq

/-- `AlgorithmReference` (models.py:68-70) -/
structure PipelineRef where
  type : RefType
  reference : String
  deriving DecidableEq

/-- `Experiment` (workspaces/models.py:10-19) -/
structure Experiment where
  pipeline : String
  dataloader : String
  vars : Dict String Val

/-- `Workspace` (workspaces/models.py:22-28) -/
structure Ws (O : Type) where
  pipelines : Dict String PipelineRef
  dataloaders : Dict String (Data.LoaderRef O)
  experiments : Dict String Experiment

/-- the part of `Result` that decides about re-execution (models.py:97-106) -/
structure Hashes (H : Type) where
  algorithm : Option H
  data : Option H
  vars : Option H

/-- `Result` (models.py:97-106): the outcome of the run (nodes, edges, action history), the variables and the hashes -/
structure Result (H R : Type) where
  outcome : R
  vars : Dict String Val
  hashes : Hashes H

/-- What a command finds outside of the workspace directory's own records. -/
structure Env (O D H R C : Type) where
  /-- `markdown.extensions.toc.slugify(text, "_")` -/
  slug : String → String
  /-- `float(text)`, without infinities and NaN -/
  pyFloat : String → Option Rat
  /-- the algorithm that a reference denotes when it is loaded for the first time (serialization.py:51-86) -/
  algorithm : RefType → String → Except PyErr Algorithm
  /-- the algorithms of `AVAILABLE_ALGORITHMS` and the names they carry (algorithms/__init__.py:3-6) -/
  available : Dict String String
  /-- `load_data_loader` (data_loader.py:139-146) -/
  loader : Data.LoaderRef O → Except PyErr D
  /-- `data_loader.hash()` -/
  digest : D → Except PyErr H
  /-- creating the graph from the data and running the steps (cli.py:283-303) -/
  run : List Obj → D → Except PyErr R
  /-- `Algorithm.hash` (models.py:83-84) -/
  algHash : Algorithm → H
  /-- `hash_dictionary` on variables -/
  varsHash : Dict String Val → H
  /-- the text of a result file (cli.py:370) -/
  encode : Result H R → C
  /-- `json.load` and `deserialize_result` (cli.py:328-331, 423-426, serialization.py:104-113) -/
  decode : C → Except PyErr (Hashes H)
  /-- the second at which the result of an experiment is created -/
  now : String → Int

/-- the directory: `workspace.yml` and the other files -/
structure World (O C : Type) where
  workspace : Option (Ws O)
  files : Files C

/-- The state of a running command: the directory and the algorithms inside imported python modules.
`load_algorithm_by_reference` hands out the module's own object (serialization.py:80-86), all other references give a new one. -/
structure St (O C : Type) where
  world : World O C
  modules : String → Except PyErr Algorithm

section
variable {O D H R C : Type}

/-- `_current_workspace` (cli.py:94-117); the error is `WorkspaceNotFoundError` -/
def currentWorkspace : PyM (St O C) (Ws O) :=
  PyM.readE fun s => match s.world.workspace with
    | some w => .ok w
    | none => .error .fileNotFound

/-- `write_to_workspace` (cli.py:80-91) -/
def writeWorkspace (w : Ws O) : PyM (St O C) Unit :=
  PyM.mod fun s => { s with world := { s.world with workspace := some w } }

/-- `d[k]` -/
def item {α : Type} (d : Dict String α) (k : String) : PyM (St O C) α :=
  match d.get? k with
  | some x => Pure.pure x
  | none => PyM.raise .keyError

/-- an `Except` value as a computation -/
def lift {α : Type} : Except PyErr α → PyM (St O C) α
  | .ok a => Pure.pure a
  | .error e => PyM.raise e

/-- `load_algorithm_by_reference` (serialization.py:51-86) -/
def loadAlgorithm (env : Env O D H R C) (ref : PipelineRef) : PyM (St O C) Algorithm :=
  match ref.type with
  | .pythonModule => PyM.readE fun s => s.modules ref.reference
  | t => lift (env.algorithm t ref.reference)

/-- `graph_model_factory(pipeline, variables)()` (graph_model.py:529-571): the steps are resolved inside the given object.
For a python module that is the module's own object.  If a reference cannot be resolved, the steps before it have been
changed in python; here the object is left alone then. -/
def buildModel (ref : PipelineRef) (a : Algorithm) (vars : Dict String Val) : PyM (St O C) Algorithm := do
  let steps ← lift (Vars.factorySteps a (some vars))
  let a' : Algorithm := ⟨a.declared, steps⟩
  match ref.type with
  | .pythonModule =>
    PyM.mod fun s => { s with modules := fun r => if r = ref.reference then .ok a' else s.modules r }
    return a'
  | _ => return a'

/-- `_execute_experiment` (cli.py:262-314) -/
def executeExperiment (env : Env O D H R C) (w : Ws O) (x : Experiment) : PyM (St O C) (Result H R) := do
  let ref ← item w.pipelines x.pipeline
  let a ← loadAlgorithm env ref
  let _ ← lift (Vars.validateVariableValues a.declared x.vars)
  let resolved := Vars.resolveVariables a.declared x.vars
  let lref ← item w.dataloaders x.dataloader
  let d ← lift (env.loader lref)
  let model ← buildModel ref a x.vars
  let outcome ← lift (env.run model.steps d)
  let h ← lift (env.digest d)
  return ⟨outcome, resolved, ⟨some (env.algHash model), some h, some (env.varsHash resolved)⟩⟩

/-- `_save_experiment_result` (cli.py:367-370) -/
def saveResult (env : Env O D H R C) (name : String) (r : Result H R) : PyM (St O C) Unit :=
  PyM.mod fun s => { s with world := { s.world with
    files := saveFile name.toList (env.now name) (env.encode r) s.world.files } }

/-- the comparisons of `_experiment_needs_reexecution` (cli.py:427-456) with the newest stored result -/
def changed [DecidableEq H] (env : Env O D H R C) (w : Ws O) (x : Experiment) (stored : Hashes H) :
    PyM (St O C) Bool :=
  if stored.algorithm = none ∨ stored.data = none then return true
  else do
    let ref ← item w.pipelines x.pipeline
    let a ← loadAlgorithm env ref
    let _ ← lift (Vars.validateVariableValues a.declared x.vars)
    let resolved := Vars.resolveVariables a.declared x.vars
    if stored.vars ≠ some (env.varsHash resolved) then return true
    else do
      let model ← buildModel ref a resolved
      if stored.algorithm ≠ some (env.algHash model) then return true
      else do
        let lref ← item w.dataloaders x.dataloader
        let d ← lift (env.loader lref)
        let h ← lift (env.digest d)
        if stored.data ≠ some h then return true
        else return false

/-- `_experiment_needs_reexecution` (cli.py:406-456) -/
def needsReexecution [DecidableEq H] (env : Env O D H R C) (w : Ws O) (name : String) : PyM (St O C) Bool :=
  match w.experiments.get? name with
  | none => PyM.raise .valueError
  | some x => do
    let vs ← PyM.readE fun s => loadVersions name.toList s.world.files.keys
    if vs = [] then return true
    else do
      let c ← PyM.readE fun s => latestFile name.toList s.world.files
      let stored ← lift (env.decode c)
      changed env w x stored

/-- `try: ... except ValueError: needs_reexecution = True` (cli.py:718-724); pydantic's `ValidationError` and the exception of
the JSON parser are subclasses of `ValueError` -/
def catchValueError (m : PyM (St O C) Bool) : PyM (St O C) Bool := fun s =>
  match m s with
  | (.error .valueError, s') => (.ok true, s')
  | (.error .validationError, s') => (.ok true, s')
  | r => r

/-- the body of the loop over all experiments (cli.py:717-730); the result tells whether the experiment was executed -/
def executeOne [DecidableEq H] (env : Env O D H R C) (w : Ws O) (force : Bool) (p : String × Experiment) :
    PyM (St O C) Bool := do
  let needs ← catchValueError (needsReexecution env w p.1)
  if needs = false ∧ force = false then return false
  else do
    let r ← executeExperiment env w p.2
    saveResult env p.1 r
    return true

/-- `execute` (cli.py:709-741) -/
def execute [DecidableEq H] (env : Env O D H R C) (name : Option String) (force : Bool) : PyM (St O C) Unit := do
  let w ← currentWorkspace
  match name with
  | none => PyM.forEach w.experiments.items fun p => do
      let _ ← executeOne env w force p
      return ()
  | some n =>
    match w.experiments.get? n with
    | none => return ()
    | some x => do
      let r ← executeExperiment env w x
      saveResult env n r

/-! ### Commands that change the workspace -/

/-- the answers to the questions of `_create_pipeline` (cli.py:120-185) -/
inductive PipelineAnswer
  | preconfigured (algorithm : String) (name : String)
  | eject (algorithm : String) (name : String)
  | skeleton (name : String)

/-- `_create_pipeline` (cli.py:120-185); the files it writes are not part of the model.  An ejected pipeline is stored under
its name, the others under the slug of the name. -/
def createPipeline (env : Env O D H R C) (w : Ws O) : PipelineAnswer → Except PyErr (Ws O)
  | .preconfigured a n =>
    match env.available.get? a with
    | none => .error .keyError
    | some named => .ok { w with pipelines := w.pipelines.set (env.slug n) ⟨.name, named⟩ }
  | .eject a n =>
    match env.available.get? a with
    | none => .error .keyError
    | some _ => .ok { w with pipelines := w.pipelines.set n ⟨.file, env.slug n ++ ".yml"⟩ }
  | .skeleton n => .ok { w with pipelines := w.pipelines.set (env.slug n) ⟨.pythonModule, env.slug n ++ ".PIPELINE"⟩ }

/-- the answers to the questions of `_create_data_loader` (cli.py:222-259) -/
structure LoaderAnswer where
  type : Data.LoaderType
  name : String
  path : String

/-- `_create_data_loader` (cli.py:222-259), also the copy of it in `init` (cli.py:653-690) -/
def createLoader (env : Env O D H R C) (w : Ws O) (a : LoaderAnswer) : Ws O :=
  match a.type with
  | .dynamic => { w with dataloaders := w.dataloaders.set (env.slug a.name) ⟨.dynamic, env.slug a.name ++ ".DataLoader", none⟩ }
  | t => { w with dataloaders := w.dataloaders.set (env.slug a.name) ⟨t, a.path, none⟩ }

/-- the answers to the questions of `_create_experiment` (cli.py:189-196) -/
structure ExperimentAnswer where
  name : String
  pipeline : String
  dataloader : String

/-- `questionary.select(choices)`: one of the choices; anything else stands for a cancelled question -/
def select (choices : List String) (answer : String) : Option String := if answer ∈ choices then some answer else none

/-- `_create_experiment` (cli.py:188-219) -/
def createExperiment (env : Env O D H R C) (w : Ws O) (a : ExperimentAnswer) : PyM (St O C) (Ws O) :=
  match select w.pipelines.keys a.pipeline with
  | none => PyM.raise .keyError
  | some p => do
    let ref ← item w.pipelines p
    let alg ← loadAlgorithm env ref
    match select w.dataloaders.keys a.dataloader with
    | none => PyM.raise .validationError
    | some l =>
      let x : Experiment := ⟨p, l, Vars.resolveVariables alg.declared Dict.empty⟩
      return { w with experiments := w.experiments.set (env.slug a.name) x }

/-- `for experiment_name, experiment in ...: if experiment.pipeline == pipeline_name` (cli.py:392-397) -/
def pipelineInUse (w : Ws O) (name : String) : Bool := w.experiments.items.any (fun p => p.2.pipeline == name)

/-- `for experiment_name, experiment in ...: if experiment.dataloader == data_loader_name` (cli.py:585-590) -/
def loaderInUse (w : Ws O) (name : String) : Bool := w.experiments.items.any (fun p => p.2.dataloader == name)

/-- `remove_pipeline` (cli.py:382-403) -/
def removePipeline (name : String) : PyM (St O C) Unit := do
  let w ← currentWorkspace
  if w.pipelines.has name = false then return ()
  else if pipelineInUse w name then return ()
  else writeWorkspace { w with pipelines := w.pipelines.del name }

/-- `remove_data_loader` (cli.py:575-596) -/
def removeLoader (name : String) : PyM (St O C) Unit := do
  let w ← currentWorkspace
  if w.dataloaders.has name = false then return ()
  else if loaderInUse w name then return ()
  else writeWorkspace { w with dataloaders := w.dataloaders.del name }

/-- `_clear_experiment` on the directory (cli.py:459-468) -/
def clearResults (name : String) : PyM (St O C) Unit := fun s =>
  match clearFiles name.toList s.world.files with
  | .error e => (.error e, s)
  | .ok files => (.ok (), { s with world := { s.world with files := files } })

/-- `remove_experiment` (cli.py:480-497) -/
def removeExperiment (name : String) : PyM (St O C) Unit := do
  let w ← currentWorkspace
  if w.experiments.has name = false then return ()
  else do
    clearResults name
    writeWorkspace { w with experiments := w.experiments.del name }

/-- `clear_experiment` (cli.py:500-515) -/
def clearExperiment (name : String) : PyM (St O C) Unit := do
  let w ← currentWorkspace
  if w.experiments.has name = false then return ()
  else do
    clearResults name
    writeWorkspace w

/-- `current_variable._PYTHON_TYPE(variable_value)` (cli.py:547) -/
def castTo (pyFloat : String → Option Rat) : VarType → String → Option Val
  | .string, s => some (.str s)
  | .integer, s => (pyInt s.toList).map Val.int
  | .float, s => (pyFloat s).map Val.float
  | .bool, s => some (.bool (s ≠ ""))

/-- the first declaration with the name (cli.py:536-543) -/
def findVariable (declared : List Variable) (name : String) : Option Variable := declared.find? (fun v => v.name == name)

/-- `experiment.variables[variable_name] = variable_value` (cli.py:559) -/
def storeVariable (w : Ws O) (experiment : String) (x : Experiment) (variable_ : String) (v : Val) : Ws O :=
  { w with experiments := w.experiments.set experiment { x with vars := x.vars.set variable_ v } }

/-- `update_experiment_variable` (cli.py:518-563) -/
def updateVariable (env : Env O D H R C) (experiment variable_ text : String) : PyM (St O C) Unit := do
  let w ← currentWorkspace
  match w.experiments.get? experiment with
  | none => return ()
  | some x => do
    let ref ← item w.pipelines x.pipeline
    let a ← loadAlgorithm env ref
    match findVariable a.declared variable_ with
    | none => return ()
    | some d =>
      match castTo env.pyFloat d.type text with
      | none => return ()
      | some v => do
        let ok ← lift (Vars.validateVariableValues a.declared (Dict.empty.set variable_ v))
        if ok = false then return ()
        else writeWorkspace (storeVariable w experiment x variable_ v)

/-- the answers given to `init` (cli.py:610-706); without an answer the question was declined.  The experiment is only asked
for if there are a pipeline and a data loader. -/
structure InitAnswers where
  overwrite : Bool
  pipeline : Option PipelineAnswer
  loader : Option LoaderAnswer
  experiment : Option ExperimentAnswer

/-- a workspace without anything (cli.py:623-631) -/
def emptyWorkspace : Ws O := ⟨Dict.empty, Dict.empty, Dict.empty⟩

/-- `init` (cli.py:610-706); declining to overwrite aborts the command -/
def initWorkspace (env : Env O D H R C) (a : InitAnswers) : PyM (St O C) Unit := do
  let exists_ ← PyM.read fun s => s.world.workspace.isSome
  if exists_ = true ∧ a.overwrite = false then PyM.raise .runtimeError
  else do
    let w1 ← match a.pipeline with
      | none => Pure.pure emptyWorkspace
      | some p => lift (createPipeline env emptyWorkspace p)
    let w2 := match a.loader with
      | none => w1
      | some l => createLoader env w1 l
    let w3 ← if w2.pipelines.items.length > 0 ∧ w2.dataloaders.items.length > 0 then
        match a.experiment with
        | none => Pure.pure w2
        | some x => createExperiment env w2 x
      else Pure.pure w2
    writeWorkspace w3

/-- the commands -/
inductive Cmd
  | init (a : InitAnswers)
  | addPipeline (a : PipelineAnswer)
  | removePipeline (name : String)
  | addLoader (a : LoaderAnswer)
  | removeLoader (name : String)
  | addExperiment (a : ExperimentAnswer)
  | removeExperiment (name : String)
  | clearExperiment (name : String)
  | updateVariable (experiment variable_ text : String)
  | execute (name : Option String) (force : Bool)

/-- one command inside its process -/
def Cmd.body [DecidableEq H] (env : Env O D H R C) : Cmd → PyM (St O C) Unit
  | .init a => initWorkspace env a
  | .addPipeline a => do
      let w ← currentWorkspace
      let w' ← lift (createPipeline env w a)
      writeWorkspace w'
  | .removePipeline n => Workspace.removePipeline n
  | .addLoader a => do
      let w ← currentWorkspace
      writeWorkspace (createLoader env w a)
  | .removeLoader n => Workspace.removeLoader n
  | .addExperiment a => do
      let w ← currentWorkspace
      let w' ← createExperiment env w a
      writeWorkspace w'
  | .removeExperiment n => Workspace.removeExperiment n
  | .clearExperiment n => Workspace.clearExperiment n
  | .updateVariable e v t => Workspace.updateVariable env e v t
  | .execute n f => Workspace.execute env n f

/-- one command: a new process, whose modules are not yet imported -/
def Cmd.run [DecidableEq H] (env : Env O D H R C) (c : Cmd) (w : World O C) : Except PyErr Unit × World O C :=
  let r := c.body env ⟨w, env.algorithm .pythonModule⟩
  (r.1, r.2.world)

/-- a sequence of commands; the world outside may change between them, and a failing command is followed by the next -/
def runAll [DecidableEq H] : List (Env O D H R C × Cmd) → World O C → World O C
  | [], w => w
  | (env, c) :: rest, w => runAll rest (c.run env w).2

end

end Workspace
end Verif
