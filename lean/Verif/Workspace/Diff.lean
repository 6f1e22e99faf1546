import Mathlib.Data.String.Basic
import Verif.Workspace.Model
import Verif.Serial.EdgeEq

/-!
# Model of `causy workspace diff` (causy/workspaces/cli.py:743-851) and of the result endpoints (causy/ui/server.py:60-128)

`μ` is the type of edge metadata, `C` the type of file contents.  Printing is modelled by the rows and warnings that are
printed, not by their layout.
-/

namespace Verif
namespace Workspace
open Serial (REdge)

/-- the first cell of a compared experiment: its label (`experiment_version`) and the edges of the loaded result -/
abbrev Compared (μ : Type) := String × List (REdge μ)

/-- `find_equivalents`: smaller name, larger name, label, edge (cli.py:791) -/
abbrev Table (μ : Type) := Dict String (Dict String (Dict String (REdge μ)))

/-- `sorted([edge.u.name, edge.v.name])` (cli.py:798) -/
def sortedNames {μ : Type} (e : REdge μ) : String × String :=
  if e.u.name ≤ e.v.name then (e.u.name, e.v.name) else (e.v.name, e.u.name)

/-- the table and the warnings "has an inconsistent edge" printed so far, as label and names -/
structure Found (μ : Type) where
  table : Table μ
  warnings : List (String × String × String)

/-- the body of the loop over the edges (cli.py:798-812) -/
def addEdge {μ : Type} (f : Found μ) (p : String × REdge μ) : Found μ :=
  let u := (sortedNames p.2).1
  let v := (sortedNames p.2).2
  let s := (f.table.get? u).getD Dict.empty
  let r := (s.get? v).getD Dict.empty
  match r.get? p.1 with
  | some e => if e.eq p.2 = false then { f with warnings := f.warnings ++ [(p.1, u, v)] } else f
  | none => { f with table := f.table.set u (s.set v (r.set p.1 p.2)) }

/-- both loops (cli.py:796-812) -/
def collect {μ : Type} (xs : List (Compared μ)) : Found μ :=
  (xs.flatMap (fun x => x.2.map (fun e => (x.1, e)))).foldl addEdge ⟨Dict.empty, []⟩

/-- one row before printing (cli.py:818-820) -/
def tableRow {μ : Type} (labels : List String) (r : Dict String (REdge μ)) : Dict String (Option (REdge μ)) :=
  r.items.foldl (fun d p => d.set p.1 (some p.2)) (labels.foldl (fun d l => d.set l none) Dict.empty)

/-- a printed row: the names at its beginning, the edges in the columns, and whether it is green -/
structure DiffRow (μ : Type) where
  header : String × String
  cells : List (Option (REdge μ))
  same : Bool

/-- `first_element` (cli.py:829-834) -/
def firstElement {μ : Type} (elements : List (Option (REdge μ))) : Option (REdge μ) := elements.findSome? id

/-- `e == first_element` (cli.py:836) -/
def cellEq {μ : Type} (e first : Option (REdge μ)) : Bool :=
  match e, first with
  | some a, some b => a.eq b
  | none, none => true
  | _, _ => false

/-- the body of the loop over the rows (cli.py:828-848); `none` is a row that is left out -/
def printRow {μ : Type} (labels : List String) (onlyDifferences : Bool) (row : Dict String (Option (REdge μ))) :
    Except PyErr (Option (DiffRow μ)) :=
  let elements := row.items.map Prod.snd
  let first := firstElement elements
  let same := elements.all (fun e => cellEq e first)
  if onlyDifferences && same then .ok none
  else match first with
    | none => .error .attributeError
    | some e =>
      if labels.all row.has then .ok (some ⟨(e.u.name, e.v.name), labels.map (fun l => (row.get? l).join), same⟩)
      else .error .keyError

/-- the rows of the table with their two names (cli.py:816-822) -/
def tableRows {μ : Type} (t : Table μ) : List ((String × String) × Dict String (REdge μ)) :=
  t.items.flatMap (fun p => p.2.items.map (fun q => ((p.1, q.1), q.2)))

/-- the loop over the rows -/
def printRows {μ : Type} (labels : List String) (onlyDifferences : Bool) :
    List ((String × String) × Dict String (REdge μ)) → Except PyErr (List (DiffRow μ))
  | [] => .ok []
  | x :: rest =>
    match printRow labels onlyDifferences (tableRow labels x.2) with
    | .error e => .error e
    | .ok r =>
      match printRows labels onlyDifferences rest with
      | .error e => .error e
      | .ok rs => .ok (r.toList ++ rs)

/-- the comparison (cli.py:791-848) -/
def compare {μ : Type} (xs : List (Compared μ)) (onlyDifferences : Bool) :
    Except PyErr (List (DiffRow μ) × List (String × String × String)) :=
  match printRows (xs.map Prod.fst) onlyDifferences (tableRows (collect xs).table) with
  | .error e => .error e
  | .ok rows => .ok (rows, (collect xs).warnings)

/-- `_load_experiment_result` (cli.py:334-348) -/
def loadResult {O C : Type} (w : Ws O) (files : Files C) (experiment : String) (version : Int) : Except PyErr C :=
  if w.experiments.has experiment = false then .error .valueError
  else match loadVersions experiment.toList files.keys with
    | .error e => .error e
    | .ok vs =>
      if version ∉ vs then .error .valueError
      else match files.get? (resultName experiment.toList version) with
        | none => .error .fileNotFound
        | some c => .ok c

/-- `_load_latest_experiment_result` (cli.py:317-331) -/
def loadLatest {O C : Type} (w : Ws O) (files : Files C) (experiment : String) : Except PyErr C :=
  match loadVersions experiment.toList files.keys with
  | .error e => .error e
  | .ok vs =>
    if w.experiments.has experiment = false then .error .valueError
    else match vs with
      | [] => .error .valueError
      | v :: _ =>
        match files.get? (resultName experiment.toList v) with
        | none => .error .fileNotFound
        | some c => .ok c

/-- one round of the loop over the names (cli.py:757-790): the label and the file read, or `none` after an error message -/
def resolveName {O C : Type} (w : Ws O) (files : Files C) (name : String) : Except PyErr (Option (String × C)) :=
  if w.experiments.has name = false then
    match pyInt ((splitAtChar '_' name.toList).getLastD []) with
    | none => .ok none
    | some version =>
      let experiment := String.ofList (joinWith '_' (splitAtChar '_' name.toList).dropLast)
      match loadVersions experiment.toList files.keys with
      | .error e => .error e
      | .ok vs =>
        if version ∉ vs then .ok none
        else match loadResult w files experiment version with
          | .error e => .error e
          | .ok c => .ok (some (experiment ++ "_" ++ String.ofList (showInt version), c))
  else
    match loadLatest w files name with
    | .error e => .error e
    | .ok c => .ok (some (name ++ "_latest", c))

/-- the loop over the names, with the loading of the results; `load` is `deserialize_result` restricted to the edges -/
def resolveNames {O C μ : Type} (load : C → Except PyErr (List (REdge μ))) (w : Ws O) (files : Files C) :
    List String → Except PyErr (Option (List (Compared μ)))
  | [] => .ok (some [])
  | n :: rest =>
    match resolveName w files n with
    | .error e => .error e
    | .ok none => .ok none
    | .ok (some (label, c)) =>
      match load c with
      | .error e => .error e
      | .ok edges =>
        match resolveNames load w files rest with
        | .error e => .error e
        | .ok none => .ok none
        | .ok (some xs) => .ok (some ((label, edges) :: xs))

/-- `diff` (cli.py:743-851); `none` means that only an error message was shown -/
def diff {O C μ : Type} (load : C → Except PyErr (List (REdge μ))) (w : Ws O) (files : Files C) (names : List String)
    (onlyDifferences : Bool) : Except PyErr (Option (List (DiffRow μ) × List (String × String × String))) :=
  if names.length < 2 then .ok none
  else match resolveNames load w files names with
    | .error e => .error e
    | .ok none => .ok none
    | .ok (some xs) =>
      match compare xs onlyDifferences with
      | .error e => .error e
      | .ok r => .ok (some r)

/-! ### The endpoints of the UI server that serve results -/

/-- what an endpoint does: an answer, an error status, or an exception inside the server -/
inductive Answer (α : Type)
  | ok (a : α)
  | status (code : Nat)
  | raised (e : PyErr)

/-- `get_latest_experiment` (server.py:60-81): the result and its version number -/
def getLatest {O C : Type} (workspace : Option (Ws O)) (files : Files C) (name : String) : Answer (C × Int) :=
  match workspace with
  | none => .status 404
  | some w =>
    if w.experiments.has name = false then .status 404
    else match loadLatest w files name with
      | .error _ => .status 400
      | .ok c =>
        match loadVersions name.toList files.keys with
        | .error e => .raised e
        | .ok [] => .raised .indexError
        | .ok (v :: _) => .ok (c, v)

/-- `get_experiment` (server.py:84-104) -/
def getExperiment {O C : Type} (workspace : Option (Ws O)) (files : Files C) (name : String) (version : Int) : Answer (C × Int) :=
  match workspace with
  | none => .status 404
  | some w =>
    if w.experiments.has name = false then .status 404
    else match loadResult w files name version with
      | .error _ => .status 400
      | .ok c => .ok (c, version)

/-- the loop of `get_experiments` -/
def listExperiments {C : Type} (files : Files C) : List (String × Experiment) → Except PyErr (List (String × Experiment × List Int))
  | [] => .ok []
  | p :: rest =>
    match loadVersions p.1.toList files.keys with
    | .error e => .error e
    | .ok vs =>
      match listExperiments files rest with
      | .error e => .error e
      | .ok l => .ok ((p.1, p.2, vs) :: l)

/-- `get_experiments` (server.py:107-128): every experiment with its versions; the time stamps as dates are left out -/
def getExperiments {O C : Type} (workspace : Option (Ws O)) (files : Files C) :
    Answer (List (String × Experiment × List Int)) :=
  match workspace with
  | none => .status 404
  | some w =>
    match listExperiments files w.experiments.items with
    | .error e => .raised e
    | .ok l => .ok l

end Workspace
end Verif
