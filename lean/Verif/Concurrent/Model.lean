import Verif.Crash.Lemmas2
import Verif.Workspace.Diff

/-!
# Processes that share a workspace directory

Two situations: the UI server answers a request while commands write and remove result files, and several commands run at the
same time.
-/

namespace Verif
namespace Workspace
namespace Concurrent
open Crash (Text Op J bodyJ Op.act)
variable {O D H R C : Type}

/-! ### Requests

A request looks at the directory several times: `os.listdir` (cli.py:354) and `open` with reading (cli.py:328, 345).  Each look
gets the directory of its moment.  (Listing is one look, and so is reading a file; the workspace is the one the server has
loaded when it was started.) -/

/-- `_load_latest_experiment_result` (cli.py:317-331): the directory when it is listed and when the file is read; `decode` is
`json.load` -/
def loadLatestAt (decode : C → Except PyErr R) (w : Ws O) (listed read : Files C) (experiment : String) : Except PyErr R :=
  match loadVersions experiment.toList listed.keys with
  | .error e => .error e
  | .ok vs =>
    if w.experiments.has experiment = false then .error .valueError
    else match vs with
      | [] => .error .valueError
      | v :: _ =>
        match read.get? (resultName experiment.toList v) with
        | none => .error .fileNotFound
        | some c => decode c

/-- `_load_experiment_result` (cli.py:334-348) -/
def loadResultAt (decode : C → Except PyErr R) (w : Ws O) (listed read : Files C) (experiment : String) (version : Int) :
    Except PyErr R :=
  if w.experiments.has experiment = false then .error .valueError
  else match loadVersions experiment.toList listed.keys with
    | .error e => .error e
    | .ok vs =>
      if version ∉ vs then .error .valueError
      else match read.get? (resultName experiment.toList version) with
        | none => .error .fileNotFound
        | some c => decode c

/-- `get_latest_experiment` (server.py:60-81): the directory is listed again for the version number.  (The result objects that
are built from the JSON value, server.py:77-79, are left out.) -/
def getLatestAt (decode : C → Except PyErr R) (workspace : Option (Ws O)) (listed read listedAgain : Files C) (name : String) :
    Answer (R × Int) :=
  match workspace with
  | none => .status 404
  | some w =>
    if w.experiments.has name = false then .status 404
    else match loadLatestAt decode w listed read name with
      | .error _ => .status 400
      | .ok r =>
        match loadVersions name.toList listedAgain.keys with
        | .error e => .raised e
        | .ok [] => .raised .indexError
        | .ok (v :: _) => .ok (r, v)

/-- `get_experiment` (server.py:84-104) -/
def getExperimentAt (decode : C → Except PyErr R) (workspace : Option (Ws O)) (listed read : Files C) (name : String)
    (version : Int) : Answer (R × Int) :=
  match workspace with
  | none => .status 404
  | some w =>
    if w.experiments.has name = false then .status 404
    else match loadResultAt decode w listed read name version with
      | .error _ => .status 400
      | .ok r => .ok (r, version)

/-! ### Commands at the same time

A command reads the workspace when it starts (every command but `init` begins with `_current_workspace`, cli.py:94-117), and
performs its file operations one after the other; operations of other commands come in between.  Result files may be read at any
moment, they are arbitrary here.  Writing a file is one operation; that other processes may find it half written is the subject
of C120-C122. -/

/-- the directory, and for every command in progress the file operations it has still to do -/
structure Sys (O : Type) where
  world : World O Text
  pending : List (List (Op O))

/-- the file operations of a command that reads this workspace and these files -/
def operations [DecidableEq H] (env : Env O D H R Text) (c : Cmd) (world : World O Text) : List (Op O) :=
  (bodyJ env c ⟨⟨world, env.algorithm .pythonModule⟩, []⟩).2.log

/-- what can happen next: one of the allowed commands is started, a command performs its next operation, or one ends early -/
inductive Step (D H R : Type) [DecidableEq H] (allowed : Cmd → Prop) : Sys O → Sys O → Prop
  | start (env : Env O D H R Text) (c : Cmd) (found : Files Text) (s : Sys O) (hc : allowed c) :
      Step D H R allowed s ⟨s.world, s.pending ++ [operations env c ⟨s.world.workspace, found⟩]⟩
  | act (world : World O Text) (pre post : List (List (Op O))) (op : Op O) (ops : List (Op O)) :
      Step D H R allowed ⟨world, pre ++ (op :: ops) :: post⟩ ⟨op.act world, pre ++ ops :: post⟩
  | stop (world : World O Text) (pre post : List (List (Op O))) (ops : List (Op O)) :
      Step D H R allowed ⟨world, pre ++ ops :: post⟩ ⟨world, pre ++ post⟩

/-- any number of steps -/
inductive Steps (D H R : Type) [DecidableEq H] (allowed : Cmd → Prop) : Sys O → Sys O → Prop
  | refl (s : Sys O) : Steps D H R allowed s s
  | step {s t u : Sys O} (h : Step D H R allowed s t) (hs : Steps D H R allowed t u) : Steps D H R allowed s u

end Concurrent
end Workspace
end Verif
