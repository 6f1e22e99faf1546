import Verif.Workspace.Model
import Verif.Vars.Spec

/-!
# What the workspace commands are supposed to do
-/

namespace Verif
namespace Workspace
open Vars (Val VarType Variable Algorithm)

/-- every file of the listing is a result file of some experiment or cannot be taken for one of `experiment`: it does not start
with the name and an underscore, or does not end with `.json` -/
def Tidy (experiment : List Char) (listing : List (List Char)) : Prop :=
  ∀ f ∈ listing, (∃ e t, f = resultName e t) ∨ ¬ (experiment ++ ['_'] <+: f) ∨ ¬ (".json".toList <:+ f)

/-- what happens to the results over time: an experiment's result is saved at a second, or an experiment is cleared -/
inductive FileOp (C : Type)
  | save (experiment : List Char) (time : Int) (content : C)
  | clear (experiment : List Char)

/-- the effect of an operation on the directory -/
def FileOp.apply {C : Type} : FileOp C → Files C → Except PyErr (Files C)
  | .save e t c, d => .ok (saveFile e t c d)
  | .clear e, d => clearFiles e d

/-- a history of operations -/
def applyAll {C : Type} : List (FileOp C) → Files C → Except PyErr (Files C)
  | [], d => .ok d
  | op :: ops, d =>
    match op.apply d with
    | .error e => .error e
    | .ok d' => applyAll ops d'

/-- the seconds of the saves of a history never decrease, starting from `now` -/
def ClockOk {C : Type} : Int → List (FileOp C) → Prop
  | _, [] => True
  | now, .save _ t _ :: ops => now ≤ t ∧ ClockOk t ops
  | now, .clear _ :: ops => ClockOk now ops

/-- what one operation does to an experiment: nothing (`none`), clear it (`some none`) or save a content -/
def FileOp.effect {C : Type} (experiment : List Char) : FileOp C → Option (Option C)
  | .save e _ c => if e = experiment then some (some c) else none
  | .clear e => if e = experiment then some none else none

/-- what the history did last to an experiment -/
def lastOf {C : Type} (experiment : List Char) : List (FileOp C) → Option (Option C)
  | [] => none
  | op :: ops => (lastOf experiment ops).or (op.effect experiment)

/-- a directory at the second `now`: its `.json` files are results that were saved at that second or before -/
def DirOk {C : Type} (now : Int) (d : Files C) : Prop :=
  ∀ f ∈ d.keys, (∃ e t, f = resultName e t ∧ t ≤ now) ∨ ¬ (".json".toList <:+ f)

/-- every experiment's pipeline and data loader exist -/
def Intact {O : Type} (w : Ws O) : Prop :=
  ∀ n x, w.experiments.get? n = some x → x.pipeline ∈ w.pipelines.keys ∧ x.dataloader ∈ w.dataloaders.keys

/-- the algorithm that a reference gives in the state `s` of a process -/
def loadedIn {O D H R C : Type} (env : Env O D H R C) (s : St O C) (ref : PipelineRef) : Except PyErr Algorithm :=
  if ref.type = .pythonModule then s.modules ref.reference else env.algorithm ref.type ref.reference

/-- a process in which no module has been imported yet -/
def fresh {O D H R C : Type} (env : Env O D H R C) (w : World O C) : St O C := ⟨w, env.algorithm .pythonModule⟩

/-- `hs` are the hashes of what the experiment depends on now: the pipeline `a` with every variable filled in, the data, and
the values of all variables -/
def CurrentHashes {O D H R C : Type} (env : Env O D H R C) (w : Ws O) (x : Experiment) (a : Algorithm) (hs : Hashes H) : Prop :=
  ∃ steps lref d h, Vars.factorySteps a (some (Vars.resolveVariables a.declared x.vars)) = .ok steps ∧
    w.dataloaders.get? x.dataloader = some lref ∧ env.loader lref = .ok d ∧ env.digest d = .ok h ∧
    hs = ⟨some (env.algHash ⟨a.declared, steps⟩), some h, some (env.varsHash (Vars.resolveVariables a.declared x.vars))⟩

/-- what a text means for a variable of a type -/
inductive Reads (pyFloat : String → Option Rat) : VarType → String → Val → Prop
  | string (s : String) : Reads pyFloat .string s (.str s)
  | integer {s : String} {i : Int} : pyInt s.toList = some i → Reads pyFloat .integer s (.int i)
  | float {s : String} {q : Rat} : pyFloat s = some q → Reads pyFloat .float s (.float q)
  | bool {s : String} : s ≠ "" → Reads pyFloat .bool s (.bool true)
  | empty : Reads pyFloat .bool "" (.bool false)

/-- `x` is the first declaration with the name `n` -/
def FirstDeclares (declared : List Variable) (n : String) (x : Variable) : Prop :=
  ∃ before after, declared = before ++ x :: after ∧ x.name = n ∧ ∀ y ∈ before, y.name ≠ n

/-- The experiment `e` is `x`, its pipeline declares the variable `v`, the text means `value` for the first declaration, and
the declaration in force allows the value. -/
def Storable {O D H R C : Type} (env : Env O D H R C) (w : Ws O) (e v text : String) (x : Experiment) (value : Val) : Prop :=
  w.experiments.get? e = some x ∧ ∃ ref a first inForce, w.pipelines.get? x.pipeline = some ref ∧
    env.algorithm ref.type ref.reference = .ok a ∧ FirstDeclares a.declared v first ∧ Reads env.pyFloat first.type text value ∧
    Vars.Declares a.declared v inForce ∧ Vars.Allowed inForce value

/-- `w'` is `w` with the variable `v` of the experiment `e` set to `value` -/
def VariableSet {O : Type} (w w' : Ws O) (e v : String) (x : Experiment) (value : Val) : Prop :=
  w'.pipelines = w.pipelines ∧ w'.dataloaders = w.dataloaders ∧
  (∀ m, m ≠ e → w'.experiments.get? m = w.experiments.get? m) ∧
  ∃ x', w'.experiments.get? e = some x' ∧ x'.pipeline = x.pipeline ∧ x'.dataloader = x.dataloader ∧
    ∀ n, x'.vars.get? n = if n = v then some value else x.vars.get? n

end Workspace
end Verif
