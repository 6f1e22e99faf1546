import Verif.Concurrent.Model

/-!
# What happens around a request, and what commands at the same time should be like
-/

namespace Verif
namespace Workspace
namespace Concurrent
open Crash (Text)
variable {O D H R C : Type}

/-- what other processes do to result files; a file may also be written in part -/
inductive Change (C : Type)
  | write (experiment : List Char) (time : Int) (content : C)
  | remove (experiment : List Char) (time : Int)

/-- whose result it is -/
def Change.experiment : Change C → List Char
  | .write e _ _ => e
  | .remove e _ => e

/-- the effect on the directory -/
def Change.apply : Change C → Files C → Files C
  | .write e t c, d => d.set (resultName e t) c
  | .remove e t, d => d.del (resultName e t)

/-- a sequence of changes -/
def after (changes : List (Change C)) (d : Files C) : Files C := changes.foldl (fun d x => x.apply d) d

/-- the newest result of an experiment -/
def IsNewest (e : String) (d : Files C) (t : Int) (c : C) : Prop :=
  d.get? (resultName e.toList t) = some c ∧ ∀ u, d.get? (resultName e.toList u) ≠ none → u ≤ t

/-- one of the two orders explains the workspace that two commands leave -/
def OneAfterTheOther [DecidableEq H] (env1 env2 : Env O D H R Text) (c1 c2 : Cmd) (world : World O Text)
    (left : Option (Ws O)) : Prop :=
  left = (runAll [(env1, c1), (env2, c2)] world).workspace ∨ left = (runAll [(env2, c2), (env1, c1)] world).workspace

/-- the workspaces that some of the allowed commands can leave, one after the other, in directories with any result files -/
inductive Sequence (D H R : Type) [DecidableEq H] (allowed : Cmd → Prop) (old : Option (Ws O)) : Option (Ws O) → Prop
  | nothing : Sequence D H R allowed old old
  | run {o : Option (Ws O)} (h : Sequence D H R allowed old o) (env : Env O D H R Text) (c : Cmd) (hc : allowed c)
      (files : Files Text) : Sequence D H R allowed old (c.run env ⟨o, files⟩).2.workspace

end Concurrent
end Workspace
end Verif
