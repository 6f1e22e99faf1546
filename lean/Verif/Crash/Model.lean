import Verif.Workspace.Model

/-!
# The directory of a workspace at the level of files, and commands that are killed

`Verif/Workspace` treats writing a file as one action.  Here the directory contains texts, a command performs a list of file
operations, and a process can be killed between two of them or in the middle of a write: `open(path, "w")` empties the file
(or creates it) and the text arrives in pieces, so that any prefix of it can be what is left.  Killing a process keeps what it
has handed over to the operating system; a loss of power is not modelled.

The commands are those of `Verif/Workspace`, with a journal of the file operations; what does not write is taken from there.
-/

namespace Verif
namespace Workspace
namespace Crash

/-- the content of a file -/
abbrev Text := List Char

/-- how a workspace is written and read -/
structure Format (O : Type) where
  /-- `yaml.dump` of the workspace (cli.py:82-89) -/
  text : Ws O → Text
  /-- `pydantic_yaml.to_yaml_str`, which `init` uses instead (cli.py:704) -/
  initText : Ws O → Text
  /-- `pydantic_yaml.parse_yaml_raw_as` (cli.py:115) -/
  parse : Text → Except PyErr (Ws O)

/-- the text that is written, by `init` or by another command -/
def Format.write {O : Type} (fmt : Format O) (init : Bool) (w : Ws O) : Text := if init then fmt.initText w else fmt.text w

/-- the directory: `workspace.yml` and the other files -/
structure Disk where
  workspace : Option Text
  files : Files Text

/-- the file operations of the commands -/
inductive Op (O : Type)
  /-- `with open(workspace_path, "w") as f: f.write(...)` (cli.py:90-91, and 703-704 for `init`) -/
  | writeWorkspace (init : Bool) (w : Ws O)
  /-- `with open(f"{experiment_name}_{timestamp}.json", "w") as f: f.write(...)` (cli.py:369-370) -/
  | writeResult (experiment : List Char) (time : Int) (content : Text)
  /-- `os.remove(f"{experiment_name}_{version}.json")` (cli.py:464); a missing file is ignored (cli.py:466) -/
  | remove (experiment : List Char) (time : Int)

variable {O D H R : Type}

/-- a completed operation -/
def Op.apply (fmt : Format O) : Op O → Disk → Disk
  | .writeWorkspace i w, d => { d with workspace := some (fmt.write i w) }
  | .writeResult e t c, d => { d with files := saveFile e t c d.files }
  | .remove e t, d => { d with files := d.files.del (resultName e t) }

/-- a sequence of completed operations -/
def applyOps (fmt : Format O) (ops : List (Op O)) (d : Disk) : Disk := ops.foldl (fun d op => op.apply fmt d) d

/-- What can be found if the process was killed during an operation: the file is open for writing, and a prefix of the text has
arrived.  Removing a file happens at once. -/
inductive Op.Torn (fmt : Format O) : Op O → Disk → Disk → Prop
  | workspace (i : Bool) (w : Ws O) (p : Text) (d : Disk) (hp : p <+: fmt.write i w) :
      Op.Torn fmt (.writeWorkspace i w) d { d with workspace := some p }
  | result (e : List Char) (t : Int) (c p : Text) (d : Disk) (hp : p <+: c) :
      Op.Torn fmt (.writeResult e t c) d { d with files := saveFile e t p d.files }

/-- What can be found if the process was killed at some point of a sequence of operations. -/
inductive Interrupted (fmt : Format O) : List (Op O) → Disk → Disk → Prop
  | between (ops : List (Op O)) (d : Disk) : Interrupted fmt ops d d
  | inside {op : Op O} (ops : List (Op O)) {d d' : Disk} (h : op.Torn fmt d d') : Interrupted fmt (op :: ops) d d'
  | later {op : Op O} {ops : List (Op O)} {d d' : Disk} (h : Interrupted fmt ops (op.apply fmt d) d') :
      Interrupted fmt (op :: ops) d d'

/-! ### The commands with a journal -/

/-- the state of a process, with the file operations it has performed -/
structure J (O : Type) where
  st : St O Text
  log : List (Op O)

/-- a computation that performs no file operation -/
def quiet {α : Type} (m : PyM (St O Text) α) : PyM (J O) α := fun j => ((m j.st).1, { j with st := (m j.st).2 })

/-- an entry of the journal -/
def note (op : Op O) : PyM (J O) Unit := PyM.mod fun j => { j with log := j.log ++ [op] }

/-- `write_to_workspace` (cli.py:80-91), and the last lines of `init` (cli.py:703-704) -/
def writeWorkspaceJ (w : Ws O) (init : Bool := false) : PyM (J O) Unit := do
  quiet (Workspace.writeWorkspace w)
  note (.writeWorkspace init w)

/-- `_save_experiment_result` (cli.py:367-370) -/
def saveResultJ (env : Env O D H R Text) (name : String) (r : Result H R) : PyM (J O) Unit := do
  quiet (saveResult env name r)
  note (.writeResult name.toList (env.now name) (env.encode r))

/-- one round of the loop of `_clear_experiment` (cli.py:462-467) -/
def removeJ (name : String) (version : Int) : PyM (J O) Unit := do
  quiet (PyM.mod fun s => { s with world := { s.world with files := s.world.files.del (resultName name.toList version) } })
  note (.remove name.toList version)

/-- `_clear_experiment` (cli.py:459-468) -/
def clearResultsJ (name : String) : PyM (J O) Unit := do
  let vs ← quiet (PyM.readE fun s => loadVersions name.toList s.world.files.keys)
  PyM.forEach vs (removeJ name)

/-- the body of the loop over all experiments (cli.py:717-730) -/
def executeOneJ [DecidableEq H] (env : Env O D H R Text) (w : Ws O) (force : Bool) (p : String × Experiment) :
    PyM (J O) Bool := do
  let needs ← quiet (catchValueError (needsReexecution env w p.1))
  if needs = false ∧ force = false then return false
  else do
    let r ← quiet (executeExperiment env w p.2)
    saveResultJ env p.1 r
    return true

/-- `execute` (cli.py:709-741) -/
def executeJ [DecidableEq H] (env : Env O D H R Text) (name : Option String) (force : Bool) : PyM (J O) Unit := do
  let w ← quiet currentWorkspace
  match name with
  | none => PyM.forEach w.experiments.items fun p => do
      let _ ← executeOneJ env w force p
      return ()
  | some n =>
    match w.experiments.get? n with
    | none => return ()
    | some x => do
      let r ← quiet (executeExperiment env w x)
      saveResultJ env n r

/-- `remove_pipeline` (cli.py:382-403) -/
def removePipelineJ (name : String) : PyM (J O) Unit := do
  let w ← quiet currentWorkspace
  if w.pipelines.has name = false then return ()
  else if pipelineInUse w name then return ()
  else writeWorkspaceJ { w with pipelines := w.pipelines.del name }

/-- `remove_data_loader` (cli.py:575-596) -/
def removeLoaderJ (name : String) : PyM (J O) Unit := do
  let w ← quiet currentWorkspace
  if w.dataloaders.has name = false then return ()
  else if loaderInUse w name then return ()
  else writeWorkspaceJ { w with dataloaders := w.dataloaders.del name }

/-- `remove_experiment` (cli.py:480-497) -/
def removeExperimentJ (name : String) : PyM (J O) Unit := do
  let w ← quiet currentWorkspace
  if w.experiments.has name = false then return ()
  else do
    clearResultsJ name
    writeWorkspaceJ { w with experiments := w.experiments.del name }

/-- `clear_experiment` (cli.py:500-515) -/
def clearExperimentJ (name : String) : PyM (J O) Unit := do
  let w ← quiet currentWorkspace
  if w.experiments.has name = false then return ()
  else do
    clearResultsJ name
    writeWorkspaceJ w

/-- `update_experiment_variable` (cli.py:518-563) -/
def updateVariableJ (env : Env O D H R Text) (experiment variable_ text : String) : PyM (J O) Unit := do
  let w ← quiet currentWorkspace
  match w.experiments.get? experiment with
  | none => return ()
  | some x => do
    let ref ← quiet (item w.pipelines x.pipeline)
    let a ← quiet (loadAlgorithm env ref)
    match findVariable a.declared variable_ with
    | none => return ()
    | some d =>
      match castTo env.pyFloat d.type text with
      | none => return ()
      | some v => do
        let ok ← quiet (lift (Vars.validateVariableValues a.declared (Dict.empty.set variable_ v)))
        if ok = false then return ()
        else writeWorkspaceJ (storeVariable w experiment x variable_ v)

/-- `init` (cli.py:610-706), up to the write -/
def initComputes (env : Env O D H R Text) (a : InitAnswers) : PyM (St O Text) (Ws O) := do
  let exists_ ← PyM.read fun s => s.world.workspace.isSome
  if exists_ = true ∧ a.overwrite = false then PyM.raise .runtimeError
  else do
    let w1 ← match a.pipeline with
      | none => Pure.pure emptyWorkspace
      | some p => lift (createPipeline env emptyWorkspace p)
    let w2 := match a.loader with
      | none => w1
      | some l => createLoader env w1 l
    if w2.pipelines.items.length > 0 ∧ w2.dataloaders.items.length > 0 then
      match a.experiment with
      | none => Pure.pure w2
      | some x => createExperiment env w2 x
    else Pure.pure w2

/-- one command inside its process -/
def bodyJ [DecidableEq H] (env : Env O D H R Text) : Cmd → PyM (J O) Unit
  | .init a => do
      let w ← quiet (initComputes env a)
      writeWorkspaceJ w true
  | .addPipeline a => do
      let w ← quiet currentWorkspace
      let w' ← quiet (lift (createPipeline env w a))
      writeWorkspaceJ w'
  | .removePipeline n => removePipelineJ n
  | .addLoader a => do
      let w ← quiet currentWorkspace
      writeWorkspaceJ (createLoader env w a)
  | .removeLoader n => removeLoaderJ n
  | .addExperiment a => do
      let w ← quiet currentWorkspace
      let w' ← quiet (createExperiment env w a)
      writeWorkspaceJ w'
  | .removeExperiment n => removeExperimentJ n
  | .clearExperiment n => clearExperimentJ n
  | .updateVariable e v t => updateVariableJ env e v t
  | .execute n f => executeJ env n f

/-- Reading the directory: `_current_workspace` (cli.py:94-117) parses the workspace file.  `init` only looks whether there is
one (cli.py:618); for a file that cannot be parsed, it gets some workspace. -/
def readDisk (fmt : Format O) (c : Cmd) (d : Disk) : Except PyErr (World O Text) :=
  match d.workspace with
  | none => .ok ⟨none, d.files⟩
  | some t =>
    match fmt.parse t, c with
    | .ok w, _ => .ok ⟨some w, d.files⟩
    | .error _, .init _ => .ok ⟨some emptyWorkspace, d.files⟩
    | .error e, _ => .error e

/-- a command in a directory: its outcome and the file operations it performs -/
def journal [DecidableEq H] (fmt : Format O) (env : Env O D H R Text) (c : Cmd) (d : Disk) : Except PyErr Unit × List (Op O) :=
  match readDisk fmt c d with
  | .error e => (.error e, [])
  | .ok w =>
    let r := bodyJ env c ⟨⟨w, env.algorithm .pythonModule⟩, []⟩
    (r.1, r.2.log)

/-- a command that is not disturbed -/
def onDisk [DecidableEq H] (fmt : Format O) (env : Env O D H R Text) (c : Cmd) (d : Disk) : Except PyErr Unit × Disk :=
  ((journal fmt env c d).1, applyOps fmt (journal fmt env c d).2 d)

/-- a command that is killed at some point, before its end or after its last file operation -/
def Killed [DecidableEq H] (fmt : Format O) (env : Env O D H R Text) (c : Cmd) (d d' : Disk) : Prop :=
  Interrupted fmt (journal fmt env c d).2 d d'

end Crash
end Workspace
end Verif
