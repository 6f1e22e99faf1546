import Verif.Crash.Spec

/-!
# A part of YAML, for the witnesses of C120 to C122

The block style that `yaml.dump` gives a workspace: one line per key, nested by indentation, the last section being the
experiments.  Only plain names without a colon occur in the witnesses, and no options or variables are set; names, author and
quoting are left out.
-/

namespace Verif
namespace Workspace
namespace Crash

deriving instance DecidableEq for Data.LoaderRef
deriving instance DecidableEq for Experiment
deriving instance DecidableEq for Ws
deriving instance DecidableEq for Op

namespace Yaml

/-- a line: its indentation, the key and what comes after the colon -/
structure Line where
  indent : Nat
  key : Text
  value : Text

/-- one line of text -/
def emitLine (l : Line) : Text :=
  List.replicate l.indent ' ' ++ l.key ++ ':' :: (if l.value = [] then [] else ' ' :: l.value) ++ ['\n']

def typeText : RefType → Text
  | .file => "file".toList
  | .name => "name".toList
  | .pythonModule => "python_module".toList

def loaderText : Data.LoaderType → Text
  | .dynamic => "dynamic".toList
  | .json => "json".toList
  | .jsonl => "jsonl".toList

/-- a section: its name and entries -/
def section_ {α : Type} (name : String) (d : Dict String α) (fields : α → List Line) : List Line :=
  if d.items = [] then [⟨0, name.toList, "{}".toList⟩]
  else ⟨0, name.toList, []⟩ :: d.items.flatMap fun p => ⟨2, p.1.toList, []⟩ :: fields p.2

/-- the lines of a workspace -/
def linesOf (w : Ws Unit) : List Line :=
  section_ "pipelines" w.pipelines (fun p => [⟨4, "reference".toList, p.reference.toList⟩, ⟨4, "type".toList, typeText p.type⟩]) ++
  section_ "dataloaders" w.dataloaders (fun l => [⟨4, "options".toList, "null".toList⟩,
    ⟨4, "reference".toList, l.reference.toList⟩, ⟨4, "type".toList, loaderText l.type⟩]) ++
  section_ "experiments" w.experiments (fun x => [⟨4, "dataloader".toList, x.dataloader.toList⟩,
    ⟨4, "pipeline".toList, x.pipeline.toList⟩, ⟨4, "variables".toList, "{}".toList⟩])

/-- the text of a workspace -/
def emit (w : Ws Unit) : Text := (linesOf w).flatMap emitLine

/-- a line that is read; a line without a colon is an error -/
def readLine (t : Text) : Except PyErr Line :=
  match splitAtChar ':' (t.dropWhile (· = ' ')) with
  | [k, v] => .ok ⟨(t.takeWhile (· = ' ')).length, k, v.drop 1⟩
  | _ => .error .valueError

/-- all lines, the empty one at the end being left out -/
def readLines : List Text → Except PyErr (List Line)
  | [] => .ok []
  | t :: ts =>
    if t = [] then readLines ts
    else match readLine t, readLines ts with
      | .ok l, .ok ls => .ok (l :: ls)
      | .error e, _ => .error e
      | _, .error e => .error e

/-- the entries at an indentation, with the lines below them -/
def entries (k : Nat) : List Line → List Line × List (Line × List Line)
  | [] => ([], [])
  | l :: ls =>
    if l.indent = k then ([], (l, (entries k ls).1) :: (entries k ls).2)
    else (l :: (entries k ls).1, (entries k ls).2)

/-- the value of a field that has one -/
def field (name : String) (ls : List Line) : Except PyErr String :=
  match ls.find? (fun l => l.key = name.toList) with
  | some l => if l.value = [] then .error .validationError else .ok (String.ofList l.value)
  | none => .error .validationError

def readType (t : String) : Except PyErr RefType :=
  if t = "file" then .ok .file else if t = "name" then .ok .name else if t = "python_module" then .ok .pythonModule
  else .error .validationError

def readLoaderType (t : String) : Except PyErr Data.LoaderType :=
  if t = "json" then .ok .json else if t = "jsonl" then .ok .jsonl else if t = "dynamic" then .ok .dynamic
  else .error .validationError

def readPipeline (ls : List Line) : Except PyErr PipelineRef := do
  let r ← field "reference" ls
  let t ← field "type" ls
  let t ← readType t
  return ⟨t, r⟩

def readLoader (ls : List Line) : Except PyErr (Data.LoaderRef Unit) := do
  let r ← field "reference" ls
  let t ← field "type" ls
  let t ← readLoaderType t
  return ⟨t, r, none⟩

def readExperiment (ls : List Line) : Except PyErr Experiment := do
  let l ← field "dataloader" ls
  let p ← field "pipeline" ls
  return ⟨p, l, Dict.empty⟩

/-- the entries of a section -/
def readSection {α : Type} (read : List Line → Except PyErr α) : List (Line × List Line) → Dict String α → Except PyErr (Dict String α)
  | [], d => .ok d
  | (l, ls) :: rest, d =>
    match read ls with
    | .error e => .error e
    | .ok a => readSection read rest (d.set (String.ofList l.key) a)

def theSection {α : Type} (name : String) (read : List Line → Except PyErr α) (es : List (Line × List Line)) :
    Except PyErr (Dict String α) :=
  match es.find? (fun e => e.1.key = name.toList) with
  | none => .error .validationError
  | some e => readSection read (entries 2 e.2).2 Dict.empty

/-- a text that is read -/
def parse (t : Text) : Except PyErr (Ws Unit) := do
  let ls ← readLines (splitAtChar '\n' t)
  let es := (entries 0 ls).2
  let p ← theSection "pipelines" readPipeline es
  let l ← theSection "dataloaders" readLoader es
  let x ← theSection "experiments" readExperiment es
  return ⟨p, l, x⟩

/-- the format -/
def format : Format Unit := ⟨emit, emit, parse⟩

/-- two pipelines, a data file and three experiments -/
def exWorkspace : Ws Unit where
  pipelines := (Dict.empty.set "pc" ⟨.name, "PC"⟩).set "pc_2" ⟨.file, "p.yml"⟩
  dataloaders := Dict.empty.set "data" ⟨.json, "data.json", none⟩
  experiments := ((Dict.empty.set "first" ⟨"pc_2", "data", Dict.empty⟩).set "second" ⟨"pc_2", "data", Dict.empty⟩).set
    "third" ⟨"pc", "data", Dict.empty⟩

/-- the workspace is read back -/
theorem parse_exWorkspace : parse (emit exWorkspace) = .ok exWorkspace := by decide +kernel

/-- the text up to the pipeline `pc` of the experiment `second`, which was to become `pc_2` -/
def exCut : Text := (emit exWorkspace).take 300

end Yaml
end Crash
end Workspace
end Verif
