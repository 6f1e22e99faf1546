import Verif.Crash.Model
import Verif.Workspace.Spec

/-!
# What a killed command may leave behind
-/

namespace Verif
namespace Workspace
namespace Crash
variable {O D H R : Type}

/-- a place in the directory: `workspace.yml` or another file -/
inductive Place
  | workspace
  | file (name : List Char)
  deriving DecidableEq

/-- the content of a place, if it exists -/
def Disk.at (d : Disk) : Place → Option Text
  | .workspace => d.workspace
  | .file f => d.files.get? f

/-- `old` was to become `new`, and was cut off while it was written: there is a file, and it contains a prefix of the new text -/
def CutOff (found new : Option Text) : Prop := ∃ p c, found = some p ∧ new = some c ∧ p <+: c

/-- Every place has its content of `before` or of `after`, and at most one place was cut off on the way. -/
def OldNewOrOneCut (before after found : Disk) : Prop :=
  ∃ cut : Option Place, ∀ x, found.at x = before.at x ∨ found.at x = after.at x ∨ (cut = some x ∧ CutOff (found.at x) (after.at x))

/-- reading `workspace.yml`: nothing, an error or a workspace -/
def reads (fmt : Format O) (d : Disk) : Option (Except PyErr (Ws O)) := d.workspace.map fmt.parse

/-- the files with names of results are results of executions, or were cut off while such a result was written -/
def Written (encode : Result H R → Text) (files : Files Text) : Prop :=
  ∀ e t c, files.get? (resultName e t) = some c → ∃ r, c <+: encode r

/-- a history of executions that were killed; the clock never runs backwards and was at `now` in the beginning -/
inductive KilledRuns [DecidableEq H] (fmt : Format O) (encode : Result H R → Text) : Int → Int → Disk → Disk → Prop
  | none (now : Int) (d : Disk) : KilledRuns fmt encode now now d d
  | run {now later latest : Int} {d d1 d2 : Disk} (env : Env O D H R Text) (name : Option String) (force : Bool)
      (henc : env.encode = encode) (hclock : ∀ n, now ≤ env.now n ∧ env.now n ≤ later)
      (hkill : Killed fmt env (.execute name force) d d1) (rest : KilledRuns fmt encode later latest d1 d2) :
      KilledRuns fmt encode now latest d d2

/-- The experiment works: its pipeline is given by a file or a name and can be loaded, its variables are valid and fill the
steps, and the data can be loaded, hashed and processed, with the outcome `outcome`. -/
def Works (env : Env O D H R Text) (w : Ws O) (x : Experiment) (a : Vars.Algorithm) (outcome : R) : Prop :=
  ∃ ref lref d steps filled h, w.pipelines.get? x.pipeline = some ref ∧ ref.type ≠ .pythonModule ∧
    env.algorithm ref.type ref.reference = .ok a ∧ Vars.validateVariableValues a.declared x.vars = .ok true ∧
    w.dataloaders.get? x.dataloader = some lref ∧ env.loader lref = .ok d ∧
    Vars.factorySteps a (some x.vars) = .ok steps ∧
    Vars.factorySteps a (some (Vars.resolveVariables a.declared x.vars)) = .ok filled ∧
    env.run steps d = .ok outcome ∧ env.digest d = .ok h

/-- the newest result of the experiment can be read and has the hashes of what the experiment depends on now -/
def UpToDate (env : Env O D H R Text) (w : Ws O) (n : String) (x : Experiment) (a : Vars.Algorithm) (files : Files Text) : Prop :=
  ∃ c hs, latestFile n.toList files = .ok c ∧ env.decode c = .ok hs ∧ CurrentHashes env w x a hs

end Crash
end Workspace
end Verif
